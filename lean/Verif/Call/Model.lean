/-!
# Arguments of a call and the parameters they are bound to

Model of `InferrableParamIterator` (`crates/zuban_python/src/params.rs` 1035-1405), of the part of
`match_arguments_against_params` (`matching/matcher/utils.rs` 716-1257) that decides whether the arguments fit the
parameters, and of the order in which `ArgIteratorBase::next` and `ArgsKwargsIterator::next` (`arguments.rs` 141-166,
826-1028, 1156-1310) hand out the arguments.

Not modelled: parameters `*args: *Ts`, `*args: P.args`, `**kwargs: Unpack[TD]` and arguments `*args: P.args` or
starred tuples with an unpacked part in the middle (`ArgKind::StarredWithUnpack`).  The types of the arguments are not
compared here: the model says which argument is compared with the annotation of which parameter.
`arbitrary_length_handled` only ranks overloads and is left out.
-/

set_option linter.unusedVariables false

namespace Verif.Call

/-- `ParamKind`, parsa_python_cst. -/
inductive Kind where
  | posOnly
  | posOrKw
  | kwOnly
  | star
  | starStar
deriving DecidableEq, Repr

/-- `CallableParam` and `FunctionParam` behind `trait Param`, params.rs 21-31.  `idx` stands for the identity of the
parameter (the Rust code passes references), `ty` for its annotation. -/
structure Param (τ : Type) where
  idx : Nat
  kind : Kind
  name : Option String
  hasDefault : Bool
  ty : τ
deriving DecidableEq, Repr

/-- `Arg`, arguments.rs 407-491.  `pos` is an argument that fills one position, `kw` one with a known name;
`fromStarStar` is `is_from_star_star_args` (637-642), the argument is a member of an unpacked `TypedDict`.
`star` and `starStar` have `in_args_or_kwargs_and_arbitrary_len`: any number of positional arguments or of named ones. -/
inductive Arg (α : Type) where
  | pos (v : α)
  | kw (name : String) (fromStarStar : Bool) (v : α)
  | star (v : α)
  | starStar (v : α)
deriving DecidableEq, Repr

variable {α τ : Type}

namespace Arg

/-- `Arg::in_args_or_kwargs_and_arbitrary_len`, arguments.rs 494-503. -/
def arbitrary : Arg α → Bool
  | .pos _ => false
  | .kw .. => false
  | .star _ => true
  | .starStar _ => true

/-- `Arg::is_arbitrary_kwargs`, arguments.rs 505-514. -/
def arbitraryKwargs : Arg α → Bool
  | .starStar _ => true
  | _ => false

/-- `Arg::is_keyword_argument`, arguments.rs 663-672. -/
def isKeyword : Arg α → Bool
  | .kw .. => true
  | .starStar _ => true
  | _ => false

/-- `Arg::keyword_name`, arguments.rs 674-683. -/
def keywordName : Arg α → Option String
  | .kw n _ _ => some n
  | _ => none

/-- `Arg::is_from_star_star_args`, arguments.rs 637-642. -/
def isFromStarStar : Arg α → Bool
  | .kw _ b _ => b
  | .starStar _ => true
  | _ => false

/-- `Arg::can_be_used_to_match_positional_param`, arguments.rs 692-707. -/
def fitsPositional : Arg α → Bool
  | .pos _ => true
  | .star _ => true
  | _ => false

/-- What the argument is, for comparing it with an annotation. -/
def value : Arg α → α
  | .pos v => v
  | .kw _ _ v => v
  | .star v => v
  | .starStar v => v

end Arg

/-! ## The order of the arguments -/

/-- `CSTArgument` with the type of unpacked expressions.  `star vs none` is a tuple of fixed length, `star [] (some v)`
an iterable of unknown length.  `starStar ms extra` is a `TypedDict` with these members and extra items;
`starStar [] (some v)` is another mapping. -/
inductive CallArg (α : Type) where
  | pos (v : α)
  | kw (name : String) (v : α)
  | star (vs : List α) (more : Option α)
  | starStar (members : List (String × α)) (extra : Option α)

namespace CallArg

def isKw : CallArg α → Bool
  | .kw .. => true
  | _ => false

def isStar : CallArg α → Bool
  | .star .. => true
  | _ => false

/-- What `ArgIterator::next` (arguments.rs 1082-1127) hands out for one argument, with `ArgsKwargsIterator::next`
(1156-1310). -/
def expand : CallArg α → List (Arg α)
  | .pos v => [.pos v]
  | .kw n v => [.kw n false v]
  | .star vs more => vs.map .pos ++ more.toList.map .star
  | .starStar ms extra => ms.map (fun m => .kw m.1 true m.2) ++ extra.toList.map .starStar

end CallArg

/-- `SimpleArgs::iter`, arguments.rs 146-158: is there a `*` after a named argument? -/
def keywordBeforeStar : List (CallArg α) → Bool
  | [] => false
  | a :: as => if a.isKw then as.any CallArg.isStar else keywordBeforeStar as

/-- `ArgIteratorBase::next`, arguments.rs 844-977: named arguments are kept back until the end, and then popped from
the last to the first, if one of them is followed by a `*`. -/
def stream (call : List (CallArg α)) : List (Arg α) :=
  if keywordBeforeStar call then
    (call.filter fun a => !a.isKw).flatMap CallArg.expand ++ (call.filter CallArg.isKw).reverse.flatMap CallArg.expand
  else call.flatMap CallArg.expand

/-! ## Binding -/

/-- `InferrableParamIterator`, params.rs 1035-1046. -/
structure It (α τ : Type) where
  args : List (Arg α)
  current : Option (Arg α) := none
  params : List (Param τ)
  unused : List (Arg α) := []
  starred : Option (Param τ) := none
  doubleStarred : Option (Param τ) := none
  tooMany : Bool := false

/-- How many arguments have not been handed out. -/
def It.pending (it : It α τ) : Nat := it.args.length + (match it.current with | none => 0 | some _ => 1)

/-- The loop in `next_arg`, params.rs 1089-1097: arguments from another `**` are dropped, the first other one is
taken. -/
def skipStarStar : List (Arg α) → Option (Arg α × List (Arg α))
  | [] => none
  | a :: as => if a.isFromStarStar then skipStarStar as else some (a, as)

/-- `InferrableParamIterator::next_arg` after an argument is found, params.rs 1084-1101. -/
def found (it : It α τ) (arg : Arg α) : Arg α × It α τ :=
  if arg.arbitrary then
    if arg.arbitraryKwargs then
      match skipStarStar it.args with
      | some (a, as) => (a, { it with current := some arg, args := as })
      | none => (arg, { it with current := some arg, args := [] })
    else (arg, { it with current := some arg })
  else (arg, { it with current := none })

/-- `InferrableParamIterator::next_arg`, params.rs 1082-1102. -/
def nextArg (it : It α τ) : Option (Arg α × It α τ) :=
  match it.current with
  | some a => some (found it a)
  | none =>
    match it.args with
    | [] => none
    | a :: as => some (found { it with args := as } a)

theorem skipStarStar_length : ∀ {l : List (Arg α)} {a as}, skipStarStar l = some (a, as) → as.length < l.length
  | [], _, _, h => by cases h
  | b :: bs, a, as, h => by
    unfold skipStarStar at h
    split at h
    · have := skipStarStar_length h
      simp only [List.length_cons]
      omega
    · cases h
      simp

theorem found_pending {it it' : It α τ} {x a : Arg α} (h : found it x = (a, it')) :
    it'.pending ≤ it.args.length + 1 ∧ (a.arbitrary = false → it'.pending ≤ it.args.length) := by
  unfold found at h
  split at h
  · split at h
    · split at h
      · rename_i hs
        cases h
        have := skipStarStar_length hs
        simp only [It.pending]
        omega
      · rename_i hx _ _ _
        cases h
        simp only [It.pending, List.length_nil]
        refine ⟨by omega, fun h => ?_⟩
        rw [hx] at h
        cases h
    · rename_i hx _
      cases h
      simp only [It.pending]
      refine ⟨by omega, fun h => ?_⟩
      rw [hx] at h
      cases h
  · cases h
    simp only [It.pending]
    omega

theorem nextArg_pending {it it' : It α τ} {a : Arg α} (h : nextArg it = some (a, it')) :
    it'.pending ≤ it.pending ∧ (a.arbitrary = false → it'.pending < it.pending) := by
  unfold nextArg at h
  split at h
  · rename_i b hb
    injection h with h
    have := found_pending h
    have e : it.pending = it.args.length + 1 := by simp [It.pending, hb]
    refine ⟨by omega, fun ha => ?_⟩
    have := this.2 ha
    omega
  · rename_i hb
    split at h
    · cases h
    · rename_i b bs hbs
      injection h with h
      have := found_pending h
      have e : it.pending = bs.length + 1 := by simp [It.pending, hb, hbs]
      simp only at this
      refine ⟨by omega, fun ha => ?_⟩
      have := this.2 ha
      omega

theorem nextArg_drop_pending {it it' : It α τ} {a : Arg α} (h : nextArg it = some (a, it')) :
    ({ it' with current := none } : It α τ).pending < it.pending := by
  unfold nextArg at h
  have key : ∀ {j : It α τ} {x}, found j x = (a, it') → it'.args.length ≤ j.args.length := by
    intro j x hx
    unfold found at hx
    split at hx
    · split at hx
      · split at hx
        · rename_i hs
          cases hx
          have := skipStarStar_length hs
          simp only
          omega
        · cases hx
          simp
      · cases hx
        simp
    · cases hx
      simp
  split at h
  · rename_i b hb
    injection h with h
    have := key h
    have e : it.pending = it.args.length + 1 := by simp [It.pending, hb]
    simp only [It.pending] at e ⊢
    omega
  · rename_i hb
    split at h
    · cases h
    · rename_i b bs hbs
      injection h with h
      have := key h
      have e : it.pending = bs.length + 1 := by simp [It.pending, hb, hbs]
      simp only [It.pending] at this e ⊢
      omega

/-- `InferrableParamIterator::maybe_exact_multi_arg`, params.rs 1104-1123. -/
def exactMulti (isKw : Bool) (it : It α τ) : Option (Arg α) × It α τ :=
  match h : nextArg it with
  | none => (none, it)
  | some (arg, it') =>
    if arg.isKeyword == isKw then (some arg, { it' with current := none })
    else if isKw && arg.arbitrary then exactMulti isKw { it' with current := none }
    else (none, { it' with current := some arg })
termination_by it.pending
decreasing_by
  exact nextArg_drop_pending h

/-- `check_unused`, params.rs 1216-1227: the first kept argument with the name of the parameter. -/
def takeUnused (name : Option String) : List (Arg α) → Option (Arg α × List (Arg α))
  | [] => none
  | a :: as =>
    if a.keywordName == name then some (a, as)
    else (takeUnused name as).map fun r => (r.1, a :: r.2)

/-- `ParamKind::PositionalOrKeyword` in `next`, params.rs 1231-1255. -/
def bindPosOrKw (p : Param τ) (it : It α τ) : Option (Arg α) × It α τ :=
  match h : nextArg it with
  | none =>
    match takeUnused p.name it.unused with
    | some (a, as) => (some a, { it with unused := as })
    | none => (none, it)
  | some (.kw n b v, it') =>
    if some n == p.name then (some (.kw n b v), it')
    else bindPosOrKw p { it' with unused := it'.unused ++ [.kw n b v] }
  | some (arg, it') =>
    if arg.arbitraryKwargs then
      match takeUnused p.name it'.unused with
      | some (a, as) => (some a, { it' with unused := as })
      | none => (some arg, it')
    else (some arg, it')
termination_by it.pending
decreasing_by
  exact (nextArg_pending h).2 rfl

/-- `ParamKind::KeywordOnly` in `next`, params.rs 1256-1283. -/
def bindKwOnly (p : Param τ) (it : It α τ) : Option (Arg α) × It α τ :=
  match h : nextArg it with
  | none =>
    match takeUnused p.name it.unused with
    | some (a, as) => (some a, { it with unused := as })
    | none => (none, it)
  | some (.starStar v, it') =>
    match takeUnused p.name it'.unused with
    | some (a, as) => (some a, { it' with unused := as })
    | none => (some (.starStar v), it')
  | some (.kw n b v, it') =>
    if some n == p.name then (some (.kw n b v), it')
    else bindKwOnly p { it' with unused := it'.unused ++ [.kw n b v] }
  | some (.star _, it') => bindKwOnly p { it' with current := none }
  | some (.pos _, it') => bindKwOnly p { it' with tooMany := true }
termination_by it.pending
decreasing_by
  · exact (nextArg_pending h).2 rfl
  · exact nextArg_drop_pending h
  · exact (nextArg_pending h).2 rfl

/-- `ParamKind::PositionalOnly` in `next`, params.rs 1284-1292. -/
def bindPosOnly (it : It α τ) : Option (Arg α) × It α τ :=
  match nextArg it with
  | none => (none, it)
  | some (arg, it') =>
    if arg.fitsPositional then (some arg, it')
    else if arg.keywordName.isSome then (none, { it' with unused := it'.unused ++ [arg] })
    else (none, it')

/-- `self.unused_keyword_arguments.pop()`. -/
def popUnused (it : It α τ) : Option (Arg α) × It α τ :=
  match it.unused.getLast? with
  | some a => (some a, { it with unused := it.unused.dropLast })
  | none => (none, it)

/-- `maybe_exact_multi_arg(true).or_else(|| self.unused_keyword_arguments.pop())`, params.rs 1204-1207. -/
def nextKeyword (it : It α τ) : Option (Arg α) × It α τ :=
  match exactMulti true it with
  | (some a, it') => (some a, it')
  | (none, it') => popUnused it'

/-- The beginning of `next` for a `**kwargs` that was reached, params.rs 1157-1214. -/
def fromDoubleStarred (it : It α τ) : Option (Param τ × Arg α) × It α τ :=
  match it.doubleStarred with
  | none => (none, it)
  | some p =>
    match nextKeyword it with
    | (some a, it') => (some (p, a), it')
    | (none, it') => (none, { it' with doubleStarred := none })

/-- The beginning of `next`, params.rs 1126-1214: parameters that take many arguments. -/
def fromStarred (it : It α τ) : Option (Param τ × Arg α) × It α τ :=
  match it.starred with
  | none => fromDoubleStarred it
  | some p =>
    match exactMulti false it with
    | (some a, it') => (some (p, a), it')
    | (none, it') => fromDoubleStarred { it' with starred := none }

theorem found_params {k j : It α τ} {x a} (hx : found k x = (a, j)) : j.params = k.params := by
  unfold found at hx
  split at hx
  · split at hx
    · split at hx <;> cases hx <;> rfl
    · cases hx; rfl
  · cases hx; rfl

theorem nextArg_params {i j : It α τ} {a} (h : nextArg i = some (a, j)) : j.params = i.params := by
  unfold nextArg at h
  split at h
  · injection h with h; exact found_params h
  · split at h
    · cases h
    · injection h with h; exact (found_params h).trans rfl

theorem exactMulti_params (isKw : Bool) (it : It α τ) : (exactMulti isKw it).2.params = it.params := by
  fun_induction exactMulti isKw it with
  | case1 => rfl
  | case2 _ _ _ h => exact (nextArg_params h).trans rfl
  | case3 _ _ _ h _ _ ih => exact ih.trans ((nextArg_params h).trans rfl)
  | case4 _ _ _ h => exact (nextArg_params h).trans rfl

theorem fromDoubleStarred_params (it : It α τ) : (fromDoubleStarred it).2.params = it.params := by
  unfold fromDoubleStarred
  split
  · rfl
  · split <;>
    · rename_i h
      unfold nextKeyword at h
      have := exactMulti_params true it
      split at h
      · rename_i he
        rw [he] at this
        cases h
        try exact this
      · rename_i he
        rw [he] at this
        unfold popUnused at h
        split at h <;> cases h <;> exact this

theorem fromStarred_params (it : It α τ) : (fromStarred it).2.params = it.params := by
  unfold fromStarred
  split
  · exact fromDoubleStarred_params it
  · have := exactMulti_params false it
    split
    · rename_i he
      rw [he] at this
      exact this
    · rename_i he
      rw [he] at this
      exact (fromDoubleStarred_params _).trans this

/-- `InferrableParamIterator::next`, params.rs 1125-1405. -/
def next (it : It α τ) : Option (Param τ × Option (Arg α)) × It α τ :=
  match h : fromStarred it with
  | (some (p, a), it') => (some (p, some a), it')
  | (none, it') =>
    match hp : it'.params with
    | [] => (none, it')
    | p :: ps =>
      match p.kind with
      | .posOrKw => let r := bindPosOrKw p { it' with params := ps }; (some (p, r.1), r.2)
      | .kwOnly => let r := bindKwOnly p { it' with params := ps }; (some (p, r.1), r.2)
      | .posOnly => let r := bindPosOnly { it' with params := ps }; (some (p, r.1), r.2)
      | .star => next { it' with params := ps, starred := some p }
      | .starStar => next { it' with params := ps, doubleStarred := some p }
termination_by it.params.length
decreasing_by
  all_goals
    have := fromStarred_params it
    rw [h] at this
    simp only at this
    rw [← this, hp]
    simp

/-! Every pair that `next` hands out uses up a parameter or an argument. -/

def It.weight (it : It α τ) : Nat := it.params.length + it.pending + it.unused.length

theorem found_unused {k j : It α τ} {x a} (hx : found k x = (a, j)) : j.unused = k.unused := by
  unfold found at hx
  split at hx
  · split at hx
    · split at hx <;> cases hx <;> rfl
    · cases hx; rfl
  · cases hx; rfl

theorem nextArg_unused {i j : It α τ} {a} (h : nextArg i = some (a, j)) : j.unused = i.unused := by
  unfold nextArg at h
  split at h
  · injection h with h; exact found_unused h
  · split at h
    · cases h
    · injection h with h; exact (found_unused h).trans rfl

theorem takeUnused_length : ∀ {l : List (Arg α)} {n a as}, takeUnused n l = some (a, as) → as.length + 1 = l.length
  | [], _, _, _, h => by cases h
  | b :: bs, n, a, as, h => by
    unfold takeUnused at h
    split at h
    · cases h
      rfl
    · cases hr : takeUnused n bs with
      | none => rw [hr] at h; cases h
      | some r =>
        rw [hr] at h
        cases h
        simp [takeUnused_length hr]

theorem exactMulti_weight (isKw : Bool) (it : It α τ) :
    (exactMulti isKw it).2.weight ≤ it.weight ∧
      ((exactMulti isKw it).1.isSome → (exactMulti isKw it).2.weight < it.weight) := by
  fun_induction exactMulti isKw it with
  | case1 => simp
  | case2 it a it' h _ =>
    have h1 := nextArg_drop_pending h
    have h2 := nextArg_params h
    have h3 := nextArg_unused h
    simp only [It.weight, It.pending] at *
    rw [h2, h3]
    constructor
    · omega
    · intro; omega
  | case3 it a it' h _ _ ih =>
    have h1 := nextArg_drop_pending h
    have h2 := nextArg_params h
    have h3 := nextArg_unused h
    have : ({ it' with current := none } : It α τ).weight < it.weight := by
      simp only [It.weight, It.pending] at *
      rw [h2, h3]
      omega
    exact ⟨by omega, fun h => by have := ih.2 h; omega⟩
  | case4 it a it' h _ _ =>
    have h1 := nextArg_drop_pending h
    have h2 := nextArg_params h
    have h3 := nextArg_unused h
    simp only [It.weight, It.pending] at *
    rw [h2, h3]
    refine ⟨by omega, fun h => by cases h⟩

theorem fromDoubleStarred_weight (it : It α τ) :
    (fromDoubleStarred it).2.weight ≤ it.weight ∧
      ((fromDoubleStarred it).1.isSome → (fromDoubleStarred it).2.weight < it.weight) := by
  unfold fromDoubleStarred
  split
  · simp
  · have hk : (nextKeyword it).2.weight ≤ it.weight ∧
        ((nextKeyword it).1.isSome → (nextKeyword it).2.weight < it.weight) := by
      unfold nextKeyword
      have := exactMulti_weight true it
      split
      · rename_i he
        rw [he] at this
        exact this
      · rename_i it' he
        rw [he] at this
        unfold popUnused
        split
        · rename_i a ha
          have hne : it'.unused.length ≠ 0 := by
            intro h0
            rw [List.length_eq_zero_iff.mp h0] at ha
            cases ha
          have hw : ({ it' with unused := it'.unused.dropLast } : It α τ).weight < it'.weight := by
            simp only [It.weight, It.pending, List.length_dropLast]
            omega
          have := this.1
          simp only at this
          exact ⟨by simp only; omega, fun _ => by simp only; omega⟩
        · exact ⟨this.1, fun h => by cases h⟩
    split
    · rename_i he
      rw [he] at hk
      exact ⟨hk.1, fun _ => hk.2 rfl⟩
    · rename_i he
      rw [he] at hk
      exact ⟨hk.1, fun h => by cases h⟩

theorem fromStarred_weight (it : It α τ) :
    (fromStarred it).2.weight ≤ it.weight ∧
      ((fromStarred it).1.isSome → (fromStarred it).2.weight < it.weight) := by
  unfold fromStarred
  split
  · exact fromDoubleStarred_weight it
  · have := exactMulti_weight false it
    split
    · rename_i he
      rw [he] at this
      exact ⟨this.1, fun _ => this.2 rfl⟩
    · rename_i it' he
      rw [he] at this
      have h2 := fromDoubleStarred_weight { it' with starred := none }
      have e : ({ it' with starred := none } : It α τ).weight = it'.weight := rfl
      rw [e] at h2
      have := this.1
      simp only at this
      exact ⟨by omega, fun h => by have := h2.2 h; omega⟩

theorem bindPosOrKw_weight (p : Param τ) (it : It α τ) : (bindPosOrKw p it).2.weight ≤ it.weight := by
  have take : ∀ (i : It α τ) {a as}, takeUnused p.name i.unused = some (a, as) →
      ({ i with unused := as } : It α τ).weight ≤ i.weight := by
    intro i a as h
    have := takeUnused_length h
    simp only [It.weight, It.pending]
    omega
  have drop : ∀ {i j : It α τ} {a}, nextArg i = some (a, j) → j.weight ≤ i.weight := by
    intro i j a h
    have h1 := nextArg_pending h
    have h2 := nextArg_params h
    have h3 := nextArg_unused h
    simp only [It.weight]
    rw [h2, h3]
    omega
  fun_induction bindPosOrKw p it with
  | case1 it _ _ _ h => exact take it h
  | case2 => exact Nat.le_refl _
  | case3 _ _ _ _ _ h => exact drop h
  | case4 it n b v it' h _ ih =>
    have h1 := (nextArg_pending h).2 rfl
    have h2 := nextArg_params h
    have h3 := nextArg_unused h
    refine Nat.le_trans ih ?_
    simp only [It.weight, It.pending, List.length_append, List.length_singleton] at *
    rw [h2, h3]
    omega
  | case5 _ _ it' _ h _ _ _ hu => exact Nat.le_trans (take it' hu) (drop h)
  | case6 _ _ _ _ h => exact drop h
  | case7 _ _ _ _ h => exact drop h

theorem bindKwOnly_weight (p : Param τ) (it : It α τ) : (bindKwOnly p it).2.weight ≤ it.weight := by
  have take : ∀ (i : It α τ) {a as}, takeUnused p.name i.unused = some (a, as) →
      ({ i with unused := as } : It α τ).weight ≤ i.weight := by
    intro i a as h
    have := takeUnused_length h
    simp only [It.weight, It.pending]
    omega
  have drop : ∀ {i j : It α τ} {a}, nextArg i = some (a, j) → j.weight ≤ i.weight := by
    intro i j a h
    have h1 := nextArg_pending h
    have h2 := nextArg_params h
    have h3 := nextArg_unused h
    simp only [It.weight]
    rw [h2, h3]
    omega
  fun_induction bindKwOnly p it with
  | case1 it _ _ _ h => exact take it h
  | case2 => exact Nat.le_refl _
  | case3 _ _ it' h _ _ hu => exact Nat.le_trans (take it' hu) (drop h)
  | case4 _ _ _ h => exact drop h
  | case5 _ _ _ _ _ h => exact drop h
  | case6 it n b v it' h _ ih =>
    have h1 := (nextArg_pending h).2 rfl
    have h2 := nextArg_params h
    have h3 := nextArg_unused h
    refine Nat.le_trans ih ?_
    simp only [It.weight, It.pending, List.length_append, List.length_singleton] at *
    rw [h2, h3]
    omega
  | case7 it v it' h ih =>
    have h1 := nextArg_drop_pending h
    have h2 := nextArg_params h
    have h3 := nextArg_unused h
    refine Nat.le_trans ih ?_
    simp only [It.weight, It.pending] at *
    rw [h2, h3]
    omega
  | case8 it v it' h ih =>
    have h1 : ({ it' with tooMany := true } : It α τ).weight = it'.weight := rfl
    have h2 := drop h
    exact Nat.le_trans ih (Nat.le_trans (Nat.le_of_eq h1) h2)

theorem bindPosOnly_weight (it : It α τ) : (bindPosOnly it).2.weight ≤ it.weight := by
  unfold bindPosOnly
  split
  · exact Nat.le_refl _
  · rename_i a it' h
    have h1 := nextArg_pending h
    have h2 := nextArg_params h
    have h3 := nextArg_unused h
    split
    · simp only [It.weight]
      rw [h2, h3]
      omega
    · split
      · rename_i hk
        have h4 : a.arbitrary = false := by cases a <;> first | rfl | cases hk
        have h5 := h1.2 h4
        simp only [It.weight, It.pending, List.length_append, List.length_singleton] at *
        rw [h2, h3]
        omega
      · simp only [It.weight]
        rw [h2, h3]
        omega

theorem next_weight (it : It α τ) {r it'} (h : next it = (some r, it')) : it'.weight < it.weight := by
  fun_induction next it with
  | case1 it p a j hs =>
    have := fromStarred_weight it
    rw [hs] at this
    cases h
    exact this.2 rfl
  | case2 => cases h
  | case3 it j hs p ps hp _ _ =>
    have h1 := (fromStarred_weight it).1
    rw [hs] at h1
    have h2 := bindPosOrKw_weight p { j with params := ps }
    have h3 : ({ j with params := ps } : It α τ).weight < j.weight := by
      simp only [It.weight, It.pending, hp, List.length_cons]
      omega
    cases h
    exact Nat.lt_of_lt_of_le (Nat.lt_of_le_of_lt h2 h3) h1
  | case4 it j hs p ps hp _ _ =>
    have h1 := (fromStarred_weight it).1
    rw [hs] at h1
    have h2 := bindKwOnly_weight p { j with params := ps }
    have h3 : ({ j with params := ps } : It α τ).weight < j.weight := by
      simp only [It.weight, It.pending, hp, List.length_cons]
      omega
    cases h
    exact Nat.lt_of_lt_of_le (Nat.lt_of_le_of_lt h2 h3) h1
  | case5 it j hs p ps hp _ _ =>
    have h1 := (fromStarred_weight it).1
    rw [hs] at h1
    have h2 := bindPosOnly_weight { j with params := ps }
    have h3 : ({ j with params := ps } : It α τ).weight < j.weight := by
      simp only [It.weight, It.pending, hp, List.length_cons]
      omega
    cases h
    exact Nat.lt_of_lt_of_le (Nat.lt_of_le_of_lt h2 h3) h1
  | case6 it j hs p ps hp _ ih =>
    have h1 := (fromStarred_weight it).1
    rw [hs] at h1
    have h2 := ih h
    simp only [It.weight, It.pending, hp, List.length_cons] at *
    omega
  | case7 it j hs p ps hp _ ih =>
    have h1 := (fromStarred_weight it).1
    rw [hs] at h1
    have h2 := ih h
    simp only [It.weight, It.pending, hp, List.length_cons] at *
    omega

/-- The loop of `match_arguments_against_params`, utils.rs 784-1145: all pairs and the iterator at the end.  Lambdas
and overloads are only looked at later, which does not change the pairs. -/
def collect (it : It α τ) : List (Param τ × Option (Arg α)) × It α τ :=
  match h : next it with
  | (none, it') => ([], it')
  | (some r, it') => let rest := collect it'; (r :: rest.1, rest.2)
termination_by it.weight
decreasing_by exact next_weight it h

/-- `InferrableParamIterator::has_unused_arguments`, params.rs 1064-1076. -/
def hasUnused (it : It α τ) : Bool × It α τ :=
  match h : nextArg it with
  | none => (false, it)
  | some (arg, it') =>
    if arg.arbitrary then hasUnused { it' with current := none }
    else (true, { it' with current := some arg })
termination_by it.pending
decreasing_by exact nextArg_drop_pending h

/-- A diagnostic of `match_arguments_against_params`. -/
inductive Report where
  | tooManyPositional
  | tooMany
  | keyword (name : String) (multipleValues : Bool)
  | missingNamed (name : String)
  | missingPositional (names : List String)
  | tooFew
deriving DecidableEq, Repr

/-- `has_keyword_param_with_name`, callable.rs 167-180 and function.rs 2688-2696. -/
def hasKeywordParam (ps : List (Param τ)) (name : String) : Bool :=
  ps.any fun p => p.name == some name && (p.kind == .posOrKw || p.kind == .kwOnly)

/-- The loop over unused arguments, utils.rs 1163-1175. -/
def reportUnused (ps : List (Param τ)) (it : It α τ) : List Report :=
  match h : nextArg it with
  | none => []
  | some (.kw n b v, it') => .keyword n (hasKeywordParam ps n) :: reportUnused ps it'
  | some _ => [.tooMany]
termination_by it.pending
decreasing_by exact (nextArg_pending h).2 rfl

/-- The loop over missing parameters, utils.rs 1190-1206: the reports and the positional names. -/
def reportMissing : List (Param τ) → List Report × List String
  | [] => ([], [])
  | p :: ps =>
    match p.kind, p.name with
    | .posOnly, _ => ([.tooFew], [])
    | _, none => ([.tooFew], [])
    | .kwOnly, some n => let r := reportMissing ps; (.missingNamed n :: r.1, r.2)
    | _, some n => let r := reportMissing ps; (r.1, n :: r.2)

/-- The parameters without default that got no argument, utils.rs 789-804. -/
def missing (pairs : List (Param τ × Option (Arg α))) : List (Param τ) :=
  pairs.filterMap fun r => if r.2.isNone && !r.1.hasDefault then some r.1 else none

/-- What `match_arguments_against_params` finds out without comparing types. -/
structure Outcome (α τ : Type) where
  pairs : List (Param τ × Option (Arg α))
  fits : Bool
  reports : List Report

/-- The end of `match_arguments_against_params`, utils.rs 1150-1222. -/
def finish (ps : List (Param τ)) (pairs : List (Param τ × Option (Arg α))) (it : It α τ) : Outcome α τ :=
  let m := missing pairs
  if it.tooMany then ⟨pairs, false, [.tooManyPositional]⟩
  else
    let r := hasUnused it
    if r.1 then ⟨pairs, false, reportUnused ps r.2⟩
    else if !r.2.unused.isEmpty then
      ⟨pairs, false, r.2.unused.filterMap fun a => a.keywordName.map fun n => .keyword n (hasKeywordParam ps n)⟩
    else
      let q := reportMissing m
      ⟨pairs, m.isEmpty, q.1 ++ (if q.2.isEmpty then [] else [.missingPositional q.2])⟩

/-- `match_arguments_against_params`, utils.rs 716-1257, for parameters and arguments. -/
def matchArguments (ps : List (Param τ)) (args : List (Arg α)) : Outcome α τ :=
  let r := collect { args := args, params := ps }
  finish ps r.1 r.2

end Verif.Call
