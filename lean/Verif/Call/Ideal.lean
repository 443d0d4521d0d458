import Verif.Call.Model

/-!
# The iterator as a function of lists

For arguments in the order positional ones, `*`, named ones, `**` the state of the iterator is described by these four
parts and the named arguments put aside.  `ideal` goes through the parameters once.
-/

namespace Verif.Call

variable {α τ : Type}

/-- A named argument. -/
structure Named (α : Type) where
  name : String
  ss : Bool
  v : α

def Named.arg (e : Named α) : Arg α := .kw e.name e.ss e.v

structure Ab (α : Type) where
  P : List α
  s : Option α
  E : List (Named α)
  k : Option α
  U : List (Named α)
  tooMany : Bool

def Ab.flat (ab : Ab α) : List (Arg α) :=
  ab.P.map .pos ++ (ab.s.toList.map .star ++ (ab.E.map Named.arg ++ ab.k.toList.map .starStar))

/-- The iterator is at this point. -/
structure At (it : It α τ) (ps : List (Param τ)) (st dst : Option (Param τ)) (ab : Ab α) : Prop where
  flat : it.current.toList ++ it.args = ab.flat
  unused : it.unused = ab.U.map Named.arg
  params : it.params = ps
  starred : it.starred = st
  doubleStarred : it.doubleStarred = dst
  tooMany : it.tooMany = ab.tooMany

/-! ## Unfolding -/

theorem exactMulti_eq (isKw : Bool) (it : It α τ) : exactMulti isKw it =
    match nextArg it with
    | none => (none, it)
    | some (arg, it') =>
      if arg.isKeyword == isKw then (some arg, { it' with current := none })
      else if isKw && arg.arbitrary then exactMulti isKw { it' with current := none }
      else (none, { it' with current := some arg }) := by
  rw [exactMulti.eq_def]
  split <;> rename_i h <;> rw [h]

theorem bindPosOrKw_eq (p : Param τ) (it : It α τ) : bindPosOrKw p it =
    match nextArg it with
    | none =>
      match takeUnused p.name it.unused with
      | some (a, as) => (some a, { it with unused := as })
      | none => (none, it)
    | some (.kw n b v, it') =>
      if some n == p.name then (some (.kw n b v), it')
      else bindPosOrKw p { it' with unused := it'.unused ++ [.kw n b v] }
    | some (arg, it') =>
      if arg.arbitraryKwargs then
        match takeUnused p.name it'.unused with
        | some (a, as) => (some a, { it' with unused := as })
        | none => (some arg, it')
      else (some arg, it') := by
  rw [bindPosOrKw.eq_def]
  split
  · rename_i h
    rw [h]
    rfl
  · rename_i h
    rw [h]
  · rename_i arg it' hne h
    rw [h]
    cases arg with
    | kw n b v => exact absurd rfl (hne n b v)
    | pos => rfl
    | star => rfl
    | starStar => rfl

theorem bindKwOnly_eq (p : Param τ) (it : It α τ) : bindKwOnly p it =
    match nextArg it with
    | none =>
      match takeUnused p.name it.unused with
      | some (a, as) => (some a, { it with unused := as })
      | none => (none, it)
    | some (.starStar v, it') =>
      match takeUnused p.name it'.unused with
      | some (a, as) => (some a, { it' with unused := as })
      | none => (some (.starStar v), it')
    | some (.kw n b v, it') =>
      if some n == p.name then (some (.kw n b v), it')
      else bindKwOnly p { it' with unused := it'.unused ++ [.kw n b v] }
    | some (.star _, it') => bindKwOnly p { it' with current := none }
    | some (.pos _, it') => bindKwOnly p { it' with tooMany := true } := by
  rw [bindKwOnly.eq_def]
  split <;> rename_i h <;> rw [h] <;> rfl

/-! ## `next_arg` -/

theorem nextArg_nil {it : It α τ} (h : it.current.toList ++ it.args = []) : nextArg it = none := by
  rcases it with ⟨args, current, ps, un, st, dst, tm⟩
  simp only at h
  cases current with
  | none => simp at h; subst h; rfl
  | some a => simp at h

theorem nextArg_plain {it : It α τ} {a : Arg α} {l} (h : it.current.toList ++ it.args = a :: l)
    (ha : a.arbitrary = false) : nextArg it = some (a, { it with current := none, args := l }) := by
  rcases it with ⟨args, current, ps, un, st, dst, tm⟩
  simp only at h
  cases current with
  | none =>
    simp at h
    subst h
    simp [nextArg, found, ha]
  | some b =>
    simp at h
    obtain ⟨rfl, rfl⟩ := h
    simp [nextArg, found, ha]

theorem nextArg_star {it : It α τ} {v : α} {l} (h : it.current.toList ++ it.args = .star v :: l) :
    nextArg it = some (.star v, { it with current := some (.star v), args := l }) := by
  rcases it with ⟨args, current, ps, un, st, dst, tm⟩
  simp only at h
  cases current with
  | none =>
    simp at h
    subst h
    simp [nextArg, found, Arg.arbitrary, Arg.arbitraryKwargs]
  | some b =>
    simp at h
    obtain ⟨rfl, rfl⟩ := h
    simp [nextArg, found, Arg.arbitrary, Arg.arbitraryKwargs]

theorem nextArg_starStar {it : It α τ} {v : α} (h : it.current.toList ++ it.args = [.starStar v]) :
    nextArg it = some (.starStar v, { it with current := some (.starStar v), args := [] }) := by
  rcases it with ⟨args, current, ps, un, st, dst, tm⟩
  simp only at h
  cases current with
  | none =>
    simp at h
    subst h
    simp [nextArg, found, Arg.arbitrary, Arg.arbitraryKwargs, skipStarStar]
  | some b =>
    simp at h
    obtain ⟨rfl, rfl⟩ := h
    simp [nextArg, found, Arg.arbitrary, Arg.arbitraryKwargs, skipStarStar]

/-! ## Parameters with one argument -/

/-- The first argument with this name, and the others. -/
def find (n : String) : List (Named α) → Option (Named α × List (Named α))
  | [] => none
  | e :: es => if e.name = n then some (e, es) else (find n es).map fun r => (r.1, e :: r.2)

/-- Named arguments before the first one with this name, that one, and those after it. -/
def cut (n : String) : List (Named α) → List (Named α) × Option (Named α × List (Named α))
  | [] => ([], none)
  | e :: es => if e.name = n then ([], some (e, es)) else let r := cut n es; (e :: r.1, r.2)

/-- The named argument for a parameter. -/
def look (n : String) (ab : Ab α) : Option (Arg α) × Ab α :=
  match cut n ab.E with
  | (before, some (e, after)) => (some e.arg, { ab with U := ab.U ++ before, E := after })
  | (before, none) =>
    match find n (ab.U ++ before) with
    | some (e, rest) => (some e.arg, { ab with E := [], U := rest })
    | none => (ab.k.map .starStar, { ab with E := [], U := ab.U ++ before })

theorem takeUnused_map (n : String) : ∀ (l : List (Named α)), takeUnused (some n) (l.map Named.arg) =
    (find n l).map fun r => (r.1.arg, r.2.map Named.arg)
  | [] => rfl
  | e :: es => by
    simp only [List.map_cons, takeUnused, find]
    by_cases h : e.name = n
    · simp [Named.arg, Arg.keywordName, h]
    · have h2 : ((Named.arg e).keywordName == some n) = false := by simp [Named.arg, Arg.keywordName, h]
      rw [if_neg (by simp [h2]), if_neg h, takeUnused_map n es]
      cases find n es <;> rfl

variable {it : It α τ} {ps : List (Param τ)} {st dst : Option (Param τ)} {ab : Ab α}

theorem flat_pos {v : α} {P'} (h : ab.P = v :: P') : ab.flat = .pos v :: ({ ab with P := P' } : Ab α).flat := by
  simp [Ab.flat, h]

theorem flat_star {v : α} (hP : ab.P = []) (hs : ab.s = some v) :
    ab.flat = .star v :: ({ ab with s := none } : Ab α).flat := by
  simp [Ab.flat, hP, hs]

theorem flat_kw {e : Named α} {E'} (hP : ab.P = []) (hs : ab.s = none) (hE : ab.E = e :: E') :
    ab.flat = e.arg :: ({ ab with E := E' } : Ab α).flat := by
  simp [Ab.flat, hP, hs, hE]

theorem flat_starStar {v : α} (hP : ab.P = []) (hs : ab.s = none) (hE : ab.E = []) (hk : ab.k = some v) :
    ab.flat = [.starStar v] := by
  simp [Ab.flat, hP, hs, hE, hk]

theorem flat_nil (hP : ab.P = []) (hs : ab.s = none) (hE : ab.E = []) (hk : ab.k = none) : ab.flat = [] := by
  simp [Ab.flat, hP, hs, hE, hk]

theorem At.next_pos (h : At it ps st dst ab) {v P'} (hP : ab.P = v :: P') :
    ∃ it', nextArg it = some (.pos v, it') ∧ At it' ps st dst { ab with P := P' } :=
  ⟨_, nextArg_plain (h.flat.trans (flat_pos hP)) rfl, ⟨rfl, h.unused, h.params, h.starred, h.doubleStarred, h.tooMany⟩⟩

theorem At.next_star (h : At it ps st dst ab) {v} (hP : ab.P = []) (hs : ab.s = some v) :
    ∃ it', nextArg it = some (.star v, it') ∧ At it' ps st dst ab ∧
      At { it' with current := none } ps st dst { ab with s := none } :=
  ⟨_, nextArg_star (h.flat.trans (flat_star hP hs)),
    ⟨(flat_star hP hs).symm, h.unused, h.params, h.starred, h.doubleStarred, h.tooMany⟩,
    ⟨rfl, h.unused, h.params, h.starred, h.doubleStarred, h.tooMany⟩⟩

theorem At.next_kw (h : At it ps st dst ab) {e E'} (hP : ab.P = []) (hs : ab.s = none) (hE : ab.E = e :: E') :
    ∃ it', nextArg it = some (.kw e.name e.ss e.v, it') ∧ it'.current = none ∧ At it' ps st dst { ab with E := E' } :=
  ⟨_, nextArg_plain (h.flat.trans (flat_kw hP hs hE)) rfl, rfl,
    ⟨rfl, h.unused, h.params, h.starred, h.doubleStarred, h.tooMany⟩⟩

theorem At.next_starStar (h : At it ps st dst ab) {v} (hP : ab.P = []) (hs : ab.s = none) (hE : ab.E = [])
    (hk : ab.k = some v) :
    ∃ it', nextArg it = some (.starStar v, it') ∧ At it' ps st dst ab ∧
      At { it' with current := none } ps st dst { ab with k := none } :=
  ⟨_, nextArg_starStar (h.flat.trans (flat_starStar hP hs hE hk)),
    ⟨(flat_starStar hP hs hE hk).symm, h.unused, h.params, h.starred, h.doubleStarred, h.tooMany⟩,
    ⟨(flat_nil (ab := { ab with k := none }) hP hs hE rfl).symm, h.unused, h.params, h.starred, h.doubleStarred, h.tooMany⟩⟩

theorem At.next_none (h : At it ps st dst ab) (hP : ab.P = []) (hs : ab.s = none) (hE : ab.E = [])
    (hk : ab.k = none) : nextArg it = none :=
  nextArg_nil (h.flat.trans (flat_nil hP hs hE hk))

theorem At.withUnused (h : At it ps st dst ab) {U : List (Named α)} {un} (hu : un = U.map Named.arg) :
    At { it with unused := un } ps st dst { ab with U := U } :=
  ⟨h.flat, hu, h.params, h.starred, h.doubleStarred, h.tooMany⟩

theorem look_cons {n : String} {e : Named α} {E'} (hE : ab.E = e :: E') (hn : e.name ≠ n) :
    look n ab = look n { ab with E := E', U := ab.U ++ [e] } := by
  rcases ab with ⟨P, s, E, k, U, tm⟩
  simp only at hE
  subst hE
  simp only [look, cut, if_neg hn]
  cases hc : cut n E' with
  | mk before r =>
    cases r with
    | none => simp
    | some r => rcases r with ⟨e', after⟩; simp

theorem bindPosOrKw_look {p : Param τ} {n : String} (hn : p.name = some n) :
    ∀ (E : List (Named α)) {it : It α τ} {ab : Ab α}, At it ps st dst ab → ab.P = [] → ab.s = none → ab.E = E →
      (bindPosOrKw p it).1 = (look n ab).1 ∧ At (bindPosOrKw p it).2 ps st dst (look n ab).2
  | [], it, ab, h, hP, hs, hE => by
    cases hk : ab.k with
    | none =>
      rw [bindPosOrKw_eq]
      simp only [h.next_none hP hs hE hk, hn, h.unused, takeUnused_map]
      simp only [look, hE, cut, List.append_nil, hk]
      cases hf : find n ab.U with
      | none =>
        refine ⟨rfl, ?_⟩
        simpa only [Option.map_none, ← hE, ← hk] using h
      | some r =>
        refine ⟨rfl, ?_⟩
        have := h.withUnused (U := r.2) rfl
        simpa only [Option.map_some, ← hE, ← hk] using this
    | some v =>
      obtain ⟨it', e1, e2, _⟩ := h.next_starStar hP hs hE hk
      rw [bindPosOrKw_eq]
      simp only [e1, Arg.arbitraryKwargs, if_true, hn, e2.unused, takeUnused_map]
      simp only [look, hE, cut, List.append_nil, hk]
      cases hf : find n ab.U with
      | none =>
        refine ⟨rfl, ?_⟩
        simpa only [Option.map_none, ← hE, ← hk] using e2
      | some r =>
        refine ⟨rfl, ?_⟩
        have := e2.withUnused (U := r.2) rfl
        simpa only [Option.map_some, ← hE, ← hk] using this
  | e :: E', it, ab, h, hP, hs, hE => by
    obtain ⟨it', e1, _, e2⟩ := h.next_kw hP hs hE
    rw [bindPosOrKw_eq]
    simp only [e1]
    by_cases hne : e.name = n
    · simp only [hn, hne, BEq.rfl, if_true]
      simp only [look, hE, cut, hne, if_true]
      refine ⟨by rw [← hne]; rfl, ?_⟩
      simpa only [List.append_nil] using e2
    · have : (some e.name == p.name) = false := by simp [hn, hne]
      simp only [this, Bool.false_eq_true, if_false]
      rw [look_cons hE hne]
      exact bindPosOrKw_look hn E'
        (e2.withUnused (U := ab.U ++ [e]) (by rw [e2.unused]; simp [Named.arg])) hP hs rfl

theorem bindKwOnly_look {p : Param τ} {n : String} (hn : p.name = some n) :
    ∀ (E : List (Named α)) {it : It α τ} {ab : Ab α}, At it ps st dst ab → ab.P = [] → ab.s = none → ab.E = E →
      (bindKwOnly p it).1 = (look n ab).1 ∧ At (bindKwOnly p it).2 ps st dst (look n ab).2
  | [], it, ab, h, hP, hs, hE => by
    cases hk : ab.k with
    | none =>
      rw [bindKwOnly_eq]
      simp only [h.next_none hP hs hE hk, hn, h.unused, takeUnused_map]
      simp only [look, hE, cut, List.append_nil, hk]
      cases hf : find n ab.U with
      | none =>
        refine ⟨rfl, ?_⟩
        simpa only [Option.map_none, ← hE, ← hk] using h
      | some r =>
        refine ⟨rfl, ?_⟩
        have := h.withUnused (U := r.2) rfl
        simpa only [Option.map_some, ← hE, ← hk] using this
    | some v =>
      obtain ⟨it', e1, e2, _⟩ := h.next_starStar hP hs hE hk
      rw [bindKwOnly_eq]
      simp only [e1, hn, e2.unused, takeUnused_map]
      simp only [look, hE, cut, List.append_nil, hk]
      cases hf : find n ab.U with
      | none =>
        refine ⟨rfl, ?_⟩
        simpa only [Option.map_none, ← hE, ← hk] using e2
      | some r =>
        refine ⟨rfl, ?_⟩
        have := e2.withUnused (U := r.2) rfl
        simpa only [Option.map_some, ← hE, ← hk] using this
  | e :: E', it, ab, h, hP, hs, hE => by
    obtain ⟨it', e1, _, e2⟩ := h.next_kw hP hs hE
    rw [bindKwOnly_eq]
    simp only [e1]
    by_cases hne : e.name = n
    · simp only [hn, hne, BEq.rfl, if_true]
      simp only [look, hE, cut, hne, if_true]
      refine ⟨by rw [← hne]; rfl, ?_⟩
      simpa only [List.append_nil] using e2
    · have : (some e.name == p.name) = false := by simp [hn, hne]
      simp only [this, Bool.false_eq_true, if_false]
      rw [look_cons hE hne]
      exact bindKwOnly_look hn E'
        (e2.withUnused (U := ab.U ++ [e]) (by rw [e2.unused]; simp [Named.arg])) hP hs rfl

/-- The positional arguments and `*` are dropped before a keyword-only parameter. -/
def dropPositional (ab : Ab α) : Ab α := { ab with P := [], s := none, tooMany := ab.tooMany || !ab.P.isEmpty }

theorem bindKwOnly_ideal {p : Param τ} {n : String} (hn : p.name = some n) :
    ∀ (P : List α) {it : It α τ} {ab : Ab α}, At it ps st dst ab → ab.P = P →
      (bindKwOnly p it).1 = (look n (dropPositional ab)).1 ∧
        At (bindKwOnly p it).2 ps st dst (look n (dropPositional ab)).2
  | [], it, ab, h, hP => by
    cases hs : ab.s with
    | none =>
      have : dropPositional ab = ab := by
        rcases ab with ⟨P, s, E, k, U, tm⟩
        simp only at hP hs
        subst hP hs
        simp [dropPositional]
      rw [this]
      exact bindKwOnly_look hn ab.E h hP hs rfl
    | some v =>
      obtain ⟨it', e1, _, e2⟩ := h.next_star hP hs
      rw [bindKwOnly_eq]
      simp only [e1]
      have : dropPositional ab = { ab with s := none } := by
        rcases ab with ⟨P, s, E, k, U, tm⟩
        simp only at hP
        subst hP
        simp [dropPositional]
      rw [this]
      exact bindKwOnly_look hn ab.E e2 hP rfl rfl
  | v :: P', it, ab, h, hP => by
    obtain ⟨it', e1, e2⟩ := h.next_pos hP
    rw [bindKwOnly_eq]
    simp only [e1]
    have h3 : At { it' with tooMany := true } ps st dst { ab with P := P', tooMany := true } :=
      ⟨e2.flat, e2.unused, e2.params, e2.starred, e2.doubleStarred, rfl⟩
    have := bindKwOnly_ideal hn P' h3 rfl
    have e : dropPositional { ab with P := P', tooMany := true } = dropPositional ab := by
      simp [dropPositional, hP]
    rw [e] at this
    exact this

/-- A positional-only parameter. -/
def onlyPositional (ab : Ab α) : Option (Arg α) × Ab α :=
  match ab.P with
  | v :: P' => (some (.pos v), { ab with P := P' })
  | [] =>
    match ab.s with
    | some v => (some (.star v), ab)
    | none =>
      match ab.E with
      | e :: E' => (none, { ab with E := E', U := ab.U ++ [e] })
      | [] => (none, ab)

theorem bindPosOnly_ideal (h : At it ps st dst ab) :
    (bindPosOnly it).1 = (onlyPositional ab).1 ∧ At (bindPosOnly it).2 ps st dst (onlyPositional ab).2 := by
  unfold onlyPositional
  split
  · rename_i v P' hP
    obtain ⟨it', e1, e2⟩ := h.next_pos hP
    simp only [bindPosOnly, e1, Arg.fitsPositional, if_true]
    exact ⟨trivial, e2⟩
  · rename_i hP
    split
    · rename_i v hs
      obtain ⟨it', e1, e2, _⟩ := h.next_star hP hs
      simp only [bindPosOnly, e1, Arg.fitsPositional, if_true]
      exact ⟨trivial, e2⟩
    · rename_i hs
      split
      · rename_i e E' hE
        obtain ⟨it', e1, _, e2⟩ := h.next_kw hP hs hE
        simp only [bindPosOnly, e1, Arg.fitsPositional, Bool.false_eq_true, if_false, Arg.keywordName,
          Option.isSome_some, if_true]
        exact ⟨trivial, e2.withUnused (U := ab.U ++ [e]) (by rw [e2.unused]; simp [Named.arg])⟩
      · rename_i hE
        cases hk : ab.k with
        | none =>
          simp only [bindPosOnly, h.next_none hP hs hE hk]
          exact ⟨trivial, h⟩
        | some v =>
          obtain ⟨it', e1, e2, _⟩ := h.next_starStar hP hs hE hk
          simp only [bindPosOnly, e1, Arg.fitsPositional, Bool.false_eq_true, if_false, Arg.keywordName,
            Option.isSome_none]
          exact ⟨trivial, e2⟩

/-- A parameter that can be given by position and by name. -/
def positionalOrNamed (n : String) (ab : Ab α) : Option (Arg α) × Ab α :=
  match ab.P with
  | v :: P' => (some (.pos v), { ab with P := P' })
  | [] =>
    match ab.s with
    | some v => (some (.star v), ab)
    | none => look n ab

theorem bindPosOrKw_ideal {p : Param τ} {n : String} (hn : p.name = some n) (h : At it ps st dst ab) :
    (bindPosOrKw p it).1 = (positionalOrNamed n ab).1 ∧
      At (bindPosOrKw p it).2 ps st dst (positionalOrNamed n ab).2 := by
  unfold positionalOrNamed
  split
  · rename_i v P' hP
    obtain ⟨it', e1, e2⟩ := h.next_pos hP
    rw [bindPosOrKw_eq]
    simp only [e1, Arg.arbitraryKwargs, Bool.false_eq_true, if_false]
    exact ⟨trivial, e2⟩
  · rename_i hP
    split
    · rename_i v hs
      obtain ⟨it', e1, e2, _⟩ := h.next_star hP hs
      rw [bindPosOrKw_eq]
      simp only [e1, Arg.arbitraryKwargs, Bool.false_eq_true, if_false]
      exact ⟨trivial, e2⟩
    · rename_i hs
      exact bindPosOrKw_look hn ab.E h hP hs rfl

/-! ## Parameters with many arguments -/

theorem exactMulti_pos (h : At it ps st dst ab) {v P'} (hP : ab.P = v :: P') :
    ∃ it', exactMulti false it = (some (.pos v), it') ∧ At it' ps st dst { ab with P := P' } := by
  have e1 := nextArg_plain (h.flat.trans (flat_pos hP)) rfl
  refine ⟨_, by rw [exactMulti_eq]; simp [e1, Arg.isKeyword]; rfl, ?_⟩
  exact ⟨rfl, h.unused, h.params, h.starred, h.doubleStarred, h.tooMany⟩

theorem exactMulti_star (h : At it ps st dst ab) {v} (hP : ab.P = []) (hs : ab.s = some v) :
    ∃ it', exactMulti false it = (some (.star v), it') ∧ At it' ps st dst { ab with s := none } := by
  obtain ⟨it', e1, _, e2⟩ := h.next_star hP hs
  exact ⟨_, by rw [exactMulti_eq]; simp only [e1, Arg.isKeyword, BEq.rfl, if_true], e2⟩

theorem exactMulti_none (h : At it ps st dst ab) (hP : ab.P = []) (hs : ab.s = none) :
    ∃ it', exactMulti false it = (none, it') ∧ At it' ps st dst ab := by
  cases hE : ab.E with
  | cons e E' =>
    obtain ⟨it', e1, hc, e2⟩ := h.next_kw hP hs hE
    refine ⟨_, by rw [exactMulti_eq]; simp [e1, Arg.isKeyword]; rfl, ?_⟩
    refine ⟨?_, e2.unused, e2.params, e2.starred, e2.doubleStarred, e2.tooMany⟩
    have := e2.flat
    rw [hc] at this
    simp only [Option.toList_none, List.nil_append] at this
    simp only [Option.toList_some, List.singleton_append, this]
    exact (flat_kw hP hs hE).symm
  | nil =>
    cases hk : ab.k with
    | none =>
      have e1 := h.next_none hP hs hE hk
      exact ⟨it, by rw [exactMulti_eq]; simp [e1], h⟩
    | some v =>
      have e1 := nextArg_starStar (h.flat.trans (flat_starStar hP hs hE hk))
      refine ⟨_, by rw [exactMulti_eq]; simp [e1, Arg.isKeyword]; rfl, ?_⟩
      exact ⟨(flat_starStar hP hs hE hk).symm, h.unused, h.params, h.starred, h.doubleStarred, h.tooMany⟩

theorem exactMulti_stuck (h : At it ps st dst ab) (hP : ab.P ≠ []) :
    ∃ it', exactMulti true it = (none, it') ∧ At it' ps st dst ab := by
  cases hp : ab.P with
  | nil => exact absurd hp hP
  | cons v P' =>
    have e1 := nextArg_plain (h.flat.trans (flat_pos hp)) rfl
    refine ⟨_, by rw [exactMulti_eq]; simp [e1, Arg.isKeyword]; rfl, ?_⟩
    exact ⟨(flat_pos hp).symm, h.unused, h.params, h.starred, h.doubleStarred, h.tooMany⟩

theorem exactMulti_named0 (h : At it ps st dst ab) (hP : ab.P = []) (hs : ab.s = none) {e E'} (hE : ab.E = e :: E') :
    ∃ it', exactMulti true it = (some e.arg, it') ∧ At it' ps st dst { ab with E := E' } := by
  have e1 := nextArg_plain (h.flat.trans (flat_kw hP hs hE)) rfl
  refine ⟨_, by rw [exactMulti_eq]; simp [e1, Arg.isKeyword, Named.arg]; rfl, ?_⟩
  exact ⟨rfl, h.unused, h.params, h.starred, h.doubleStarred, h.tooMany⟩

theorem exactMulti_double0 (h : At it ps st dst ab) (hP : ab.P = []) (hs : ab.s = none) (hE : ab.E = []) {v}
    (hk : ab.k = some v) :
    ∃ it', exactMulti true it = (some (.starStar v), it') ∧ At it' ps st dst { ab with k := none } := by
  obtain ⟨it', e1, _, e2⟩ := h.next_starStar hP hs hE hk
  exact ⟨_, by rw [exactMulti_eq]; simp only [e1, Arg.isKeyword, BEq.rfl, if_true], e2⟩

theorem exactMulti_done0 (h : At it ps st dst ab) (hP : ab.P = []) (hs : ab.s = none) (hE : ab.E = [])
    (hk : ab.k = none) :
    ∃ it', exactMulti true it = (none, it') ∧ At it' ps st dst ab :=
  ⟨it, by rw [exactMulti_eq]; simp [h.next_none hP hs hE hk], h⟩

/-- A `*` is dropped. -/
theorem exactMulti_drop (h : At it ps st dst ab) (hP : ab.P = []) :
    ∃ it1, exactMulti true it = exactMulti true it1 ∧ At it1 ps st dst { ab with s := none } := by
  cases hs : ab.s with
  | none => exact ⟨it, rfl, by simpa only [← hs] using h⟩
  | some v =>
    obtain ⟨it', e1, _, e2⟩ := h.next_star hP hs
    refine ⟨_, ?_, e2⟩
    rw [exactMulti_eq]
    simp [e1, Arg.isKeyword, Arg.arbitrary]

/-! ## All parameters -/

/-- What goes into `*args`. -/
def starPart (p : Param τ) (ab : Ab α) : List (Param τ × Option (Arg α)) :=
  ab.P.map (fun v => (p, some (.pos v))) ++ ab.s.toList.map (fun v => (p, some (.star v)))

/-- What goes into `**kwargs`. -/
def doublePart (p : Param τ) (ab : Ab α) : List (Param τ × Option (Arg α)) :=
  if ab.P.isEmpty then
    ab.E.map (fun e => (p, some e.arg)) ++ (ab.k.toList.map (fun v => (p, some (.starStar v))) ++
      ab.U.reverse.map (fun e => (p, some e.arg)))
  else ab.U.reverse.map (fun e => (p, some e.arg))

def afterDouble (ab : Ab α) : Ab α :=
  if ab.P.isEmpty then { ab with s := none, E := [], k := none, U := [] } else { ab with U := [] }

/-- All pairs, and what is left. -/
def ideal : List (Param τ) → Ab α → List (Param τ × Option (Arg α)) × Ab α
  | [], ab => ([], ab)
  | p :: ps, ab =>
    match p.kind, p.name with
    | .posOnly, _ =>
      let r := onlyPositional ab
      let rest := ideal ps r.2
      ((p, r.1) :: rest.1, rest.2)
    | .posOrKw, n =>
      let r := positionalOrNamed (n.getD "") ab
      let rest := ideal ps r.2
      ((p, r.1) :: rest.1, rest.2)
    | .kwOnly, n =>
      let r := look (n.getD "") (dropPositional ab)
      let rest := ideal ps r.2
      ((p, r.1) :: rest.1, rest.2)
    | .star, _ =>
      let rest := ideal ps { ab with P := [], s := none }
      (starPart p ab ++ rest.1, rest.2)
    | .starStar, _ =>
      let rest := ideal ps (afterDouble ab)
      (doublePart p ab ++ rest.1, rest.2)

theorem collect_eq (it : It α τ) : collect it =
    match next it with
    | (none, it') => ([], it')
    | (some r, it') => let rest := collect it'; (r :: rest.1, rest.2) := by
  rw [collect.eq_def]
  split <;> rename_i h <;> rw [h]

theorem next_eq (it : It α τ) : next it =
    match fromStarred it with
    | (some (p, a), it') => (some (p, some a), it')
    | (none, it') =>
      match it'.params with
      | [] => (none, it')
      | p :: ps =>
        match p.kind with
        | .posOrKw => let r := bindPosOrKw p { it' with params := ps }; (some (p, r.1), r.2)
        | .kwOnly => let r := bindKwOnly p { it' with params := ps }; (some (p, r.1), r.2)
        | .posOnly => let r := bindPosOnly { it' with params := ps }; (some (p, r.1), r.2)
        | .star => next { it' with params := ps, starred := some p }
        | .starStar => next { it' with params := ps, doubleStarred := some p } := by
  rw [next.eq_def]
  split
  · rename_i h
    rw [h]
  · rename_i it' h
    rw [h]
    simp only
    split
    · rename_i hp
      rw [hp]
    · rename_i p ps hp
      rw [hp]
      split <;> rename_i hk <;> simp only [hk]

theorem At.fromStarred_none (h : At it ps none none ab) : fromStarred it = (none, it) := by
  simp [fromStarred, fromDoubleStarred, h.starred, h.doubleStarred]

theorem collect_star {p : Param τ} : ∀ (P : List α) {it : It α τ} {ab : Ab α}, At it ps (some p) none ab → ab.P = P →
    ∃ it', At it' ps none none { ab with P := [], s := none } ∧
      collect it = (starPart p ab ++ (collect it').1, (collect it').2)
  | v :: P', it, ab, h, hP => by
    obtain ⟨it1, e1, e2⟩ := exactMulti_pos h hP
    obtain ⟨it', e3, e4⟩ := collect_star P' e2 rfl
    refine ⟨it', e3, ?_⟩
    rw [collect_eq, next_eq]
    simp only [fromStarred, h.starred, e1, e4]
    simp [starPart, hP]
  | [], it, ab, h, hP => by
    cases hs : ab.s with
    | some v =>
      obtain ⟨it1, e1, e2⟩ := exactMulti_star h hP hs
      obtain ⟨it2, e3, e4⟩ := exactMulti_none e2 hP rfl
      have e5 : At { it2 with starred := none } ps none none { ab with P := [], s := none } :=
        ⟨e4.flat.trans (by simp [Ab.flat, hP]), e4.unused, e4.params, rfl, e4.doubleStarred, e4.tooMany⟩
      refine ⟨_, e5, ?_⟩
      have hn : next it1 = next { it2 with starred := none } := by
        rw [next_eq, next_eq]
        simp only [fromStarred, e2.starred, e3]
      rw [collect_eq, next_eq]
      simp only [fromStarred, h.starred, e1]
      rw [collect_eq it1, hn, ← collect_eq]
      simp [starPart, hP, hs]
    | none =>
      obtain ⟨it2, e3, e4⟩ := exactMulti_none h hP hs
      have e5 : At { it2 with starred := none } ps none none { ab with P := [], s := none } :=
        ⟨e4.flat.trans (by simp [Ab.flat, hP, hs]), e4.unused, e4.params, rfl, e4.doubleStarred, e4.tooMany⟩
      refine ⟨_, e5, ?_⟩
      have hn : next it = next { it2 with starred := none } := by
        rw [next_eq, next_eq]
        simp only [fromStarred, h.starred, e3]
      rw [collect_eq it, hn, ← collect_eq]
      simp [starPart, hP, hs]

/-- Only the arguments put aside are left for `**kwargs`. -/
theorem collect_pop {p : Param τ} : ∀ (n : Nat) {it : It α τ} {ab : Ab α}, At it ps none (some p) ab →
    (∀ {it1 : It α τ} {ab1 : Ab α}, At it1 ps none (some p) ab1 → ab1.P = ab.P → ab1.s = ab.s → ab1.E = ab.E → ab1.k = ab.k →
      ∃ it2, exactMulti true it1 = (none, it2) ∧ At it2 ps none (some p) ab1) → ab.U.length = n →
    ∃ it', At it' ps none none { ab with U := [] } ∧
      collect it = (ab.U.reverse.map (fun e => (p, some e.arg)) ++ (collect it').1, (collect it').2)
  | 0, it, ab, h, hm, hU => by
    obtain ⟨it2, e1, e2⟩ := hm h rfl rfl rfl rfl
    have hU := List.length_eq_zero_iff.mp hU
    have e3 : At { it2 with doubleStarred := none } ps none none { ab with U := [] } :=
      ⟨e2.flat, by rw [← hU]; exact e2.unused, e2.params, e2.starred, rfl, e2.tooMany⟩
    refine ⟨_, e3, ?_⟩
    have hn : next it = next { it2 with doubleStarred := none } := by
      rw [next_eq, next_eq]
      have : it2.unused = [] := by rw [e2.unused, hU]; rfl
      simp only [fromStarred, h.starred, fromDoubleStarred, h.doubleStarred, nextKeyword, e1, popUnused, this, e2.starred,
        List.getLast?_nil]
    rw [collect_eq it, hn, ← collect_eq]
    simp [hU]
  | n + 1, it, ab, h, hm, hU => by
    obtain ⟨it2, e1, e2⟩ := hm h rfl rfl rfl rfl
    have hne : ab.U ≠ [] := by intro h0; rw [h0] at hU; cases hU
    obtain ⟨U', e, hUe⟩ : ∃ U' e, ab.U = U' ++ [e] := ⟨_, _, (List.dropLast_concat_getLast hne).symm⟩
    have hu : it2.unused = U'.map Named.arg ++ [e.arg] := by rw [e2.unused, hUe]; simp
    have e3 : At { it2 with unused := U'.map Named.arg } ps none (some p) { ab with U := U' } :=
      e2.withUnused rfl
    obtain ⟨it', e4, e5⟩ := collect_pop n e3 (fun a b c d f => hm a b c d f)
      (by rw [hUe] at hU; simpa using hU)
    refine ⟨it', e4, ?_⟩
    rw [collect_eq, next_eq]
    simp only [fromStarred, h.starred, fromDoubleStarred, h.doubleStarred, nextKeyword, e1, popUnused, hu,
      List.getLast?_concat, List.dropLast_concat, e5]
    simp [hUe]

theorem collect_double_named {p : Param τ} : ∀ (E : List (Named α)) {it : It α τ} {ab : Ab α}, At it ps none (some p) ab →
    ab.P = [] → ab.E = E →
    ∃ it', At it' ps none none (afterDouble ab) ∧
      collect it = (doublePart p ab ++ (collect it').1, (collect it').2)
  | e :: E', it, ab, h, hP, hE => by
    obtain ⟨it0, e0, e0'⟩ := exactMulti_drop h hP
    obtain ⟨it1, e1, e2⟩ := exactMulti_named0 e0' hP rfl hE
    obtain ⟨it', e3, e4⟩ := collect_double_named E' e2 hP rfl
    refine ⟨it', by simpa [afterDouble, hP] using e3, ?_⟩
    rw [collect_eq, next_eq]
    simp only [fromStarred, h.starred, fromDoubleStarred, h.doubleStarred, nextKeyword, e0, e1, e4]
    simp [doublePart, hP, hE]
  | [], it, ab, h, hP, hE => by
    obtain ⟨it0, e0, e0'⟩ := exactMulti_drop h hP
    have pop : ∀ {it1 : It α τ}, At it1 ps none (some p) { ab with s := none, k := none } →
        ∃ it', At it' ps none none { ab with s := none, E := [], k := none, U := [] } ∧
          collect it1 = (ab.U.reverse.map (fun e => (p, some e.arg)) ++ (collect it').1, (collect it').2) := by
      intro it1 h1
      obtain ⟨it', e1, e2⟩ := collect_pop ab.U.length h1
        (fun a b c d f => exactMulti_done0 a (b.trans hP) c (d.trans hE) f) rfl
      exact ⟨it', by simpa only [hE] using e1, e2⟩
    have hn : next it = next it0 := by
      rw [next_eq, next_eq]
      simp only [fromStarred, h.starred, e0'.starred, fromDoubleStarred, h.doubleStarred, e0'.doubleStarred,
        nextKeyword, e0]
    rw [collect_eq, hn, ← collect_eq]
    cases hk : ab.k with
    | some v =>
      obtain ⟨it1, e1, e2⟩ := exactMulti_double0 e0' hP rfl hE hk
      obtain ⟨it', e3, e4⟩ := pop e2
      refine ⟨it', by simpa [afterDouble, hP] using e3, ?_⟩
      rw [collect_eq, next_eq]
      simp only [fromStarred, e0'.starred, fromDoubleStarred, e0'.doubleStarred, nextKeyword, e1, e4]
      simp [doublePart, hP, hE, hk]
    | none =>
      obtain ⟨it', e3, e4⟩ := pop (by simpa only [hk] using e0')
      refine ⟨it', by simpa [afterDouble, hP] using e3, ?_⟩
      rw [e4]
      simp [doublePart, hP, hE, hk]

theorem collect_double {p : Param τ} (h : At it ps none (some p) ab) :
    ∃ it', At it' ps none none (afterDouble ab) ∧
      collect it = (doublePart p ab ++ (collect it').1, (collect it').2) := by
  by_cases hP : ab.P = []
  · exact collect_double_named ab.E h hP rfl
  · obtain ⟨it', e1, e2⟩ := collect_pop ab.U.length h
      (fun a b _ _ _ => exactMulti_stuck a (by rw [b]; exact hP)) rfl
    have hP' : ab.P.isEmpty = false := by cases hp : ab.P with | nil => exact absurd hp hP | cons => rfl
    exact ⟨it', by simpa [afterDouble, hP'] using e1, by simpa [doublePart, hP'] using e2⟩

/-- Parameters that can be given by name have one. -/
def HasNames (ps : List (Param τ)) : Prop := ∀ p ∈ ps, p.kind = .posOrKw ∨ p.kind = .kwOnly → ∃ n, p.name = some n

theorem collect_ideal : ∀ (ps : List (Param τ)) {it : It α τ} {ab : Ab α}, HasNames ps → At it ps none none ab →
    (collect it).1 = (ideal ps ab).1 ∧ At (collect it).2 [] none none (ideal ps ab).2
  | [], it, ab, _, h => by
    rw [collect_eq, next_eq]
    simp only [h.fromStarred_none, h.params]
    exact ⟨rfl, h⟩
  | p :: ps, it, ab, hn, h => by
    have hn' : HasNames ps := fun q hq => hn q (List.mem_cons_of_mem _ hq)
    have h' : At { it with params := ps } ps none none ab :=
      ⟨h.flat, h.unused, rfl, h.starred, h.doubleStarred, h.tooMany⟩
    cases hk : p.kind with
    | posOnly =>
      obtain ⟨e1, e2⟩ := bindPosOnly_ideal h'
      obtain ⟨e3, e4⟩ := collect_ideal ps hn' e2
      rw [collect_eq, next_eq]
      simp only [h.fromStarred_none, h.params, hk, ideal]
      exact ⟨by rw [e3, e1], e4⟩
    | posOrKw =>
      obtain ⟨n, hnm⟩ := hn p List.mem_cons_self (Or.inl hk)
      obtain ⟨e1, e2⟩ := bindPosOrKw_ideal hnm h'
      obtain ⟨e3, e4⟩ := collect_ideal ps hn' e2
      rw [collect_eq, next_eq]
      simp only [h.fromStarred_none, h.params, hk, ideal, hnm, Option.getD_some]
      exact ⟨by rw [e3, e1], e4⟩
    | kwOnly =>
      obtain ⟨n, hnm⟩ := hn p List.mem_cons_self (Or.inr hk)
      obtain ⟨e1, e2⟩ := bindKwOnly_ideal hnm ab.P h' rfl
      obtain ⟨e3, e4⟩ := collect_ideal ps hn' e2
      rw [collect_eq, next_eq]
      simp only [h.fromStarred_none, h.params, hk, ideal, hnm, Option.getD_some]
      exact ⟨by rw [e3, e1], e4⟩
    | star =>
      have h2 : At { it with params := ps, starred := some p } ps (some p) none ab :=
        ⟨h.flat, h.unused, rfl, rfl, h.doubleStarred, h.tooMany⟩
      obtain ⟨it', e1, e2⟩ := collect_star ab.P h2 rfl
      obtain ⟨e3, e4⟩ := collect_ideal ps hn' e1
      have hnx : next it = next { it with params := ps, starred := some p } := by
        rw [next_eq it]
        simp only [h.fromStarred_none, h.params, hk]
      rw [collect_eq, hnx, ← collect_eq, e2]
      simp only [ideal, hk]
      exact ⟨by rw [e3], e4⟩
    | starStar =>
      have h2 : At { it with params := ps, doubleStarred := some p } ps none (some p) ab :=
        ⟨h.flat, h.unused, rfl, h.starred, rfl, h.tooMany⟩
      obtain ⟨it', e1, e2⟩ := collect_double h2
      obtain ⟨e3, e4⟩ := collect_ideal ps hn' e1
      have hnx : next it = next { it with params := ps, doubleStarred := some p } := by
        rw [next_eq it]
        simp only [h.fromStarred_none, h.params, hk]
      rw [collect_eq, hnx, ← collect_eq, e2]
      simp only [ideal, hk]
      exact ⟨by rw [e3], e4⟩

/-! ## The verdict -/

theorem hasUnused_eq (it : It α τ) : hasUnused it =
    match nextArg it with
    | none => (false, it)
    | some (arg, it') =>
      if arg.arbitrary then hasUnused { it' with current := none }
      else (true, { it' with current := some arg }) := by
  rw [hasUnused.eq_def]
  split <;> rename_i h <;> rw [h]

theorem hasUnused_ideal (h : At it ps st dst ab) :
    (hasUnused it).1 = !(ab.P.isEmpty && ab.E.isEmpty) ∧ (hasUnused it).2.unused = ab.U.map Named.arg := by
  cases hP : ab.P with
  | cons v P' =>
    obtain ⟨it', e1, e2⟩ := h.next_pos hP
    rw [hasUnused_eq]
    simp only [e1, Arg.arbitrary, Bool.false_eq_true, if_false]
    exact ⟨rfl, e2.unused⟩
  | nil =>
    have key : ∀ {it : It α τ} {ab : Ab α}, At it ps st dst ab → ab.P = [] → ab.s = none →
        (hasUnused it).1 = !(ab.E.isEmpty) ∧ (hasUnused it).2.unused = ab.U.map Named.arg := by
      intro it ab h hP hs
      cases hE : ab.E with
      | cons e E' =>
        obtain ⟨it', e1, _, e2⟩ := h.next_kw hP hs hE
        rw [hasUnused_eq]
        simp only [e1, Arg.arbitrary, Bool.false_eq_true, if_false]
        exact ⟨rfl, e2.unused⟩
      | nil =>
        cases hk : ab.k with
        | none =>
          rw [hasUnused_eq, h.next_none hP hs hE hk]
          exact ⟨rfl, h.unused⟩
        | some v =>
          obtain ⟨it', e1, _, e2⟩ := h.next_starStar hP hs hE hk
          rw [hasUnused_eq]
          simp only [e1, Arg.arbitrary, if_true]
          rw [hasUnused_eq, e2.next_none hP hs hE rfl]
          exact ⟨rfl, e2.unused⟩
    simp only [List.isEmpty_nil, Bool.true_and]
    cases hs : ab.s with
    | none => exact key h hP hs
    | some v =>
      obtain ⟨it', e1, _, e2⟩ := h.next_star hP hs
      rw [hasUnused_eq]
      simp only [e1, Arg.arbitrary, if_true]
      have := key e2 hP rfl
      exact this

/-- The arguments of an orderly call. -/
def start (P : List α) (s : Option α) (E : List (Named α)) (k : Option α) : Ab α := ⟨P, s, E, k, [], false⟩

theorem matchArguments_ideal {ps : List (Param τ)} (hn : HasNames ps) (P : List α) (s : Option α) (E : List (Named α))
    (k : Option α) :
    let r := ideal ps (start P s E k)
    let o := matchArguments ps (start P s E k).flat
    o.pairs = r.1 ∧ (o.fits = true ↔ r.2.tooMany = false ∧ r.2.P = [] ∧ r.2.E = [] ∧ r.2.U = [] ∧ missing r.1 = []) := by
  have h0 : At { args := (start P s E k).flat, params := ps } ps none none (start P s E k) :=
    ⟨rfl, rfl, rfl, rfl, rfl, rfl⟩
  obtain ⟨e1, e2⟩ := collect_ideal ps hn h0
  obtain ⟨e3, e4⟩ := hasUnused_ideal e2
  simp only [matchArguments, finish, e2.tooMany, e1, e3, e4]
  cases ht : (ideal ps (start P s E k)).2.tooMany with
  | true => simp
  | false =>
    cases hP : (ideal ps (start P s E k)).2.P with
    | cons => simp
    | nil =>
      cases hE : (ideal ps (start P s E k)).2.E with
      | cons => simp
      | nil =>
        cases hU : (ideal ps (start P s E k)).2.U with
        | cons => simp
        | nil => simp

end Verif.Call
