import Verif.Pattern.Lemmas

/-!
# `match` statements: the properties

`World` stands for the rest of the checker and `Run` for a program that runs; `Sound` says that
the rest of the checker is right about the program.
-/

namespace Verif.Pattern

variable {B V : Type} {r : Run B V} {w : World B}

/-! ## C151: the body of a case -/

/-- If a value of the type of the subject matches the pattern, then it has the type that the
subject has in the body of the case.

Missing: starred patterns with tuples that have an unpacked part, with `Sequence` and with classes
that may be sequences; `__match_args__` that are another in a subclass. -/
theorem then_partial (hs : Sound r w) (hsame : SameArgs r w) {p : Pat} {T : Un B} {v : V}
    {σ : Binds V} (hok : StarsOk r w p T) (hv : Has r T v)
    (hm : Matches r p v σ) : Has r (guards w p T).truthy v :=
  (then_pat hs hsame p T v σ hok hv hm).1

/-- A pattern for which the subject is `Never` in the body of its case matches no value of the
type of the subject: code that is reported as unreachable is unreachable.

Missing: see `then_partial`. -/
theorem never_matches_partial (hs : Sound r w) (hsame : SameArgs r w) {p : Pat} {T : Un B} {v : V}
    (hok : StarsOk r w p T) (hv : Has r T v)
    (hn : (guards w p T).truthy = []) : Fails r p v := by
  intro σ hm
  have := then_partial hs hsame hok hv hm
  rw [hn] at this
  exact this

/-! ## C152: the names of a pattern -/

/-- If a value of the type of the subject matches the pattern, then each name that Python binds
has a value of the type that the checker infers for the name.

Missing: see `then_partial`; alternatives with arguments that can fail; classes whose
`__match_args__` is not a tuple of literals. -/
theorem names_partial (hs : Sound r w) (hsame : SameArgs r w) (hk : ArgsKnown w) {p : Pat}
    {T : Un B} {v : V} {σ : Binds V} (ho : OrsTotal r p) (hok : StarsOk r w p T) (hv : Has r T v)
    (hm : Matches r p v σ) : Bound r σ (guards w p T).caps :=
  (then_pat hs hsame p T v σ hok hv hm).2 ⟨hk, ho⟩

/-! ## C153: what a case leaves -/

/-- If a value of the type of the subject does not match the pattern, then it has the type that
the subject has after the case.

Missing: class patterns with arguments that can fail, and the starred patterns of
`then_partial`. -/
theorem else_partial (hs : Sound r w) {p : Pat} {T : Un B} {v : V} (ha : ArgsTotal r p)
    (hok : StarsOk r w p T) (hv : Has r T v) (hf : Fails r p v) : Has r (guards w p T).falsey v :=
  else_pat hs p ha T v hok hv hf

/-- Neither in the body of a case nor after it has the subject a type with values that it did not
have before.

Missing: sequence patterns with named tuples, which become tuples, with tuples that have an
unpacked part, and with classes that may be sequences; nested sequence patterns. -/
theorem inside_partial (hn : Narrows r w) {p : Pat} {T : Un B} {v : V}
    (hp : Seqless p ∨ (Flat p ∧ ∃ (P : Ty B → Prop), Sequences w P ∧ ∀ t ∈ T, P t)) :
    (Has r (guards w p T).truthy v → Has r T v) ∧ (Has r (guards w p T).falsey v → Has r T v) := by
  rcases hp with h | ⟨hf, P, hP, h⟩
  · exact inside_seqless hn p h T v
  · exact inside_flat hn hP p hf T v h

/-- After a pattern that always matches nothing is left.

The hypotheses say that there is nothing left of `Never`. -/
theorem total_rest (hv : ∀ (k : Nat), (w.value k []).2 = []) (hi : ∀ (c : Nat), w.isa c [] = ([], []))
    {p : Pat} (hp : Total p) (T : Un B) : (guards w p T).falsey = [] :=
  guards_total hv hi p hp T

/-- After a class pattern whose arguments are names the members of the union that are instances of
the class are gone: what is left is what is left after `isinstance`. In the body the subject has
the type that it has after `isinstance`. -/
theorem class_names {c : Nat} {pos : List Pat} {kw : List (Nat × Pat)} {T : Un B} (hT : T ≠ [])
    (hpos : ∀ p ∈ pos, (∃ (n : Nat), p = .capture n) ∨ p = .wild)
    (hkw : ∀ k ∈ kw, (∃ (n : Nat), k.2 = .capture n) ∨ k.2 = .wild)
    (hargs : ∀ t ∈ (w.isa c T).1, ∃ (ns : List Nat), w.matchArgs t = .names ns ∧
      pos.length ≤ ns.length)
    (hattr : ∀ t ∈ (w.isa c T).1, ∀ (n : Nat), w.attr t n ≠ some []) :
    (guards w (.cls c pos kw) T).falsey = (w.isa c T).2 ∧
    (guards w (.cls c pos kw) T).truthy = (w.isa c T).1 := by
  have key : ∀ t ∈ (w.isa c T).1, ∃ caps, classPart t
      (guardsPos w pos t (w.matchArgs t) (pos.length + kw.length)) (guardsKw w kw t) =
      ⟨[t], [], caps⟩ := by
    intro t ht
    obtain ⟨ns, hns, hl⟩ := hargs t ht
    have h1 := guardsPos_names (total := pos.length + kw.length) (hattr t ht) pos ns hpos hl
    have h2 := guardsKw_names (hattr t ht) kw hkw
    refine ⟨(guardsPos w pos t (w.matchArgs t) (pos.length + kw.length)).2 ++
      (guardsKw w kw t).2, ?_⟩
    unfold classPart
    rw [hns, h1]
    dsimp only
    rw [if_neg (by rw [h2]; decide)]
  simp only [guards, gather]
  rw [if_neg (by simpa using hT)]
  generalize (w.isa c T).1 = ts at key
  generalize (w.isa c T).2 = us
  induction ts with
  | nil => simp
  | cons t ts ih =>
    obtain ⟨caps, e⟩ := key t List.mem_cons_self
    have ih := ih fun u hu => key u (List.mem_cons_of_mem _ hu)
    simp only [List.map_cons, List.flatMap_cons, e, List.nil_append, List.singleton_append]
    exact ⟨ih.1, by rw [ih.2]⟩

/-- If an argument of a class pattern cannot match, because its attribute has no value that
matches, or if there are more positional arguments than names in `__match_args__`, then the
instances of the class are left after the case. -/
theorem class_impossible {c : Nat} {pos : List Pat} {kw : List (Nat × Pat)} {T : Un B} {t : Ty B}
    (ht : t ∈ (w.isa c T).1)
    (h : (∃ (n : Nat) (p : Pat), (n, p) ∈ kw ∧
        (guards w p ((w.attr t n).getD [.leaf w.any])).truthy = []) ∨
      ∃ (ns : List Nat), w.matchArgs t = .names ns ∧ (ns.length < pos.length ∨
        ∃ (i n : Nat) (p : Pat), pos[i]? = some p ∧ ns[i]? = some n ∧
          (guards w p ((w.attr t n).getD [.leaf w.any])).truthy = [])) :
    t ∈ (guards w (.cls c pos kw) T).falsey := by
  have key : t ∈ (classPart t (guardsPos w pos t (w.matchArgs t) (pos.length + kw.length))
      (guardsKw w kw t)).falsey := by
    rcases h with ⟨n, p, hm, he⟩ | ⟨ns, hns, h⟩
    · have := guardsKw_mismatch kw hm he
      unfold classPart
      rw [if_pos this]
      split <;> exact List.mem_singleton.mpr rfl
    · have := guardsPos_mismatch (total := pos.length + kw.length) pos ns h
      unfold classPart
      rw [hns]
      split
      · exact List.mem_singleton.mpr rfl
      · exact List.mem_singleton.mpr rfl
      · exact List.mem_singleton.mpr rfl
      · rename_i e
        exact absurd e this
  simp only [guards, gather]
  exact List.mem_append_right _ (List.mem_flatMap.mpr ⟨_, List.mem_map_of_mem ht, key⟩)

/-- After a sequence pattern that consists of names tuples of the length of the pattern are gone,
and tuples of other lengths are left. A starred pattern takes the entries that are left over. -/
theorem tuple_names {before after : List Pat} {star : Option (Option Nat)} {Ts : List (Un B)}
    (hb : ∀ p ∈ before, (∃ (n : Nat), p = .capture n) ∨ p = .wild)
    (ha : ∀ p ∈ after, (∃ (n : Nat), p = .capture n) ∨ p = .wild)
    (hne : ∀ T ∈ Ts, T ≠ []) :
    let fits := before.length + after.length = Ts.length ∨
      (star.isSome ∧ before.length + after.length < Ts.length)
    (fits → (guards w (.seq before star after) [.fixed Ts]).falsey = [] ∧
      (guards w (.seq before star after) [.fixed Ts]).truthy = [.fixed Ts]) ∧
    (¬ fits → (guards w (.seq before star after) [.fixed Ts]).falsey = [.fixed Ts] ∧
      (guards w (.seq before star after) [.fixed Ts]).truthy = []) := by
  dsimp only
  simp only [guards, gather, List.map_cons, List.map_nil, List.flatMap_cons, List.flatMap_nil,
    List.append_nil, seqPart, tuplePart]
  have hstar : star.isNone = true ↔ ¬ star.isSome = true := by cases star <;> simp
  constructor
  · intro h
    have hlen : before.length + after.length ≤ Ts.length := by omega
    rw [if_neg (by rw [hstar]; rintro (⟨h1, h2⟩ | h1) <;> rcases h with h | ⟨h, h'⟩ <;>
      first | omega | exact absurd h h1)]
    have z1 := guardsZip_names (w := w) before (Ts.take before.length) hb (by simp; omega)
      fun T hT => hne T (List.mem_of_mem_take hT)
    have z2 := guardsZip_names (w := w) after (Ts.drop (Ts.length - after.length)) ha
      (by simp; omega) fun T hT => hne T (List.mem_of_mem_drop hT)
    have e : Ts.take before.length ++ (Ts.drop before.length).take
        (Ts.length - (before.length + after.length)) ++ Ts.drop (Ts.length - after.length) = Ts := by
      have : Ts.drop (Ts.length - after.length) =
          (Ts.drop before.length).drop (Ts.length - (before.length + after.length)) := by
        rw [List.drop_drop]; congr 1; omega
      rw [this, List.append_assoc, List.take_append_drop, List.take_append_drop]
    unfold Zip.andThen
    rw [z1.1, z2.1, z1.2, z2.2]
    exact ⟨rfl, by simp only [e]⟩
  · intro h
    rw [if_pos (by
      rw [hstar]
      by_cases hs : star.isSome = true
      · right
        by_cases h' : before.length + after.length = Ts.length
        · exact absurd (.inl h') h
        · by_cases h2 : before.length + after.length < Ts.length
          · exact absurd (.inr ⟨hs, h2⟩) h
          · omega
      · by_cases h' : before.length + after.length = Ts.length
        · exact absurd (.inl h') h
        · by_cases h2 : before.length + after.length < Ts.length
          · exact .inl ⟨hs, h2⟩
          · right; omega)]
    exact ⟨rfl, rfl⟩

/-! ## C154: the statement -/

/-- If no case of the statement is executed, then the subject has the type that is left after all
cases.

Missing: what is missing for `else_partial`; guards of cases with `P as name`. -/
theorem rest_partial (hs : Sound r w) {cs : List (Pat × Option (Guard B × GuardRun V))} {v : V}
    (hf : FallsThrough r cs v) : ∀ {T : Un B}, (∀ c ∈ cs, CaseOk r c.1 c.2) → CasesOk r w cs T →
    Has r T v → Has r (restOfCases w (erase cs) T) v := by
  induction hf with
  | nil => exact fun _ _ hv => hv
  | fails hf _ ih =>
    intro T hc hok hv
    refine ih (fun c h => hc c (List.mem_cons_of_mem _ h)) (casesOk_tail hok) ?_
    exact rest_step hs (hc _ List.mem_cons_self) (casesOk_head hok) hv (.inl hf)
  | guard hm hh _ ih =>
    intro T hc hok hv
    refine ih (fun c h => hc c (List.mem_cons_of_mem _ h)) (casesOk_tail hok) ?_
    exact rest_step hs (hc _ List.mem_cons_self) (casesOk_head hok) hv
      (.inr ⟨_, _, _, rfl, hm, hh⟩)

/-- If the checker finds that a statement is exhaustive, then one of its cases is executed.

Missing: see `rest_partial`. -/
theorem exhaustive_partial (hs : Sound r w) {cs : List (Pat × Option (Guard B × GuardRun V))}
    {T : Un B} {v : V} (hc : ∀ c ∈ cs, CaseOk r c.1 c.2) (hok : CasesOk r w cs T) (hv : Has r T v)
    (he : restOfCases w (erase cs) T = []) : ∃ (i : Nat) (σ : Binds V), Executes r cs v i σ := by
  rcases executes_or_falls (r := r) cs v with h | h
  · have := rest_partial hs h hc hok hv
    rw [he] at this
    exact this.elim
  · exact h

/-- If a case is executed, then the subject and the names have the types that the checker uses for
its body.

Missing: see `rest_partial` and `then_partial`. -/
theorem body_partial (hs : Sound r w) (hsame : SameArgs r w)
    {cs : List (Pat × Option (Guard B × GuardRun V))} {v : V} {i : Nat} {σ : Binds V}
    (he : Executes r cs v i σ) : ∀ {T : Un B}, (∀ c ∈ cs, CaseOk r c.1 c.2) → CasesOk r w cs T →
    Has r T v → ∃ (p : Pat) (g : Option (Guard B × GuardRun V)), cs[i]? = some (p, g) ∧
      Has r (guards w p (restOfCases w (erase (cs.take i)) T)).truthy v ∧
      (ArgsKnown w → Bound r σ (guards w p (restOfCases w (erase (cs.take i)) T)).caps) := by
  induction he with
  | plain hm =>
    intro T hc hok hv
    have := then_pat hs hsame _ T _ _ (casesOk_head hok) hv hm
    exact ⟨_, _, rfl, this.1, fun hk => this.2 ⟨hk, (hc _ List.mem_cons_self).2.1⟩⟩
  | holds hm _ =>
    intro T hc hok hv
    have := then_pat hs hsame _ T _ _ (casesOk_head hok) hv hm
    exact ⟨_, _, rfl, this.1, fun hk => this.2 ⟨hk, (hc _ List.mem_cons_self).2.1⟩⟩
  | fails hf _ ih =>
    intro T hc hok hv
    exact ih (fun c h => hc c (List.mem_cons_of_mem _ h)) (casesOk_tail hok)
      (rest_step hs (hc _ List.mem_cons_self) (casesOk_head hok) hv (.inl hf))
  | guard hm hh _ ih =>
    intro T hc hok hv
    exact ih (fun c h => hc c (List.mem_cons_of_mem _ h)) (casesOk_tail hok)
      (rest_step hs (hc _ List.mem_cons_self) (casesOk_head hok) hv (.inr ⟨_, _, _, rfl, hm, hh⟩))

/-! ## A sample -/

namespace Sample

/-- Values: numbers, texts, tuples, lists, points and pairs (named tuples). -/
inductive Val where
  | int (n : Nat)
  | str (s : String)
  | tup (vs : List Val)
  | list (vs : List Val)
  | point (sub : Bool) (x : Nat) (y : String)
  | pair (a : Nat) (b : String)

inductive Base where
  | any | object | int | str | list | point | sub | pair
  deriving DecidableEq

def cInt : Nat := 0
def cStr : Nat := 1
def cPoint : Nat := 2

def run : Run Base Val where
  leafHas
    | .any, _ => True
    | .object, _ => True
    | .int, v => ∃ (n : Nat), v = .int n
    | .str, v => ∃ (s : String), v = .str s
    | .list, v => ∃ (vs : List Val), v = .list vs
    | .point, v => ∃ (sub : Bool) (x : Nat) (y : String), v = .point sub x y
    | .sub, v => ∃ (x : Nat) (y : String), v = .point true x y
    | .pair, v => ∃ (a : Nat) (b : String), v = .pair a b
  items
    | .tup vs => some vs
    | .list vs => some vs
    | .pair a b => some [.int a, .str b]
    | _ => none
  text v := ∃ (s : String), v = .str s
  isTuple v := (∃ (vs : List Val), v = .tup vs) ∨ ∃ (a : Nat) (b : String), v = .pair a b
  newList vs v := v = .list vs
  equals k v := v = .int k
  inst c v :=
    (c = cInt ∧ ∃ (n : Nat), v = .int n) ∨ (c = cStr ∧ ∃ (s : String), v = .str s) ∨
    (c = cPoint ∧ ∃ (sub : Bool) (x : Nat) (y : String), v = .point sub x y)
  attr
    | .point _ x _, 0 => some (.int x)
    | .point _ _ y, 1 => some (.str y)
    | _, _ => none
  matchArgs c := if c = cPoint then some [0, 1] else none
  selfMatch c := c = cInt ∨ c = cStr

/-- The class as a type. -/
def baseOf (c : Nat) : List (Ty Base) :=
  if c = cInt then [.leaf .int] else if c = cStr then [.leaf .str]
  else if c = cPoint then [.leaf .point] else []

/-- `isinstance` with a member of a union. -/
def isaOne (c : Nat) (t : Ty Base) : List (Ty Base) × List (Ty Base) :=
  match t with
  | .leaf .any => (baseOf c, [t])
  | .leaf .object => (baseOf c, [t])
  | .leaf .int => if c = cInt then ([t], []) else ([], [t])
  | .leaf .str => if c = cStr then ([t], []) else ([], [t])
  | .leaf .point => if c = cPoint then ([t], []) else ([], [t])
  | .leaf .sub => if c = cPoint then ([t], []) else ([], [t])
  | _ => ([], [t])

/-- The checker; `subArgs` is the `__match_args__` of the subclass of `Point`. -/
def world (subArgs : List Nat) : World Base where
  value _ T := (T, T)
  isa c T := (T.flatMap fun t => (isaOne c t).1, T.flatMap fun t => (isaOne c t).2)
  kind
    | .any => .any
    | .object => .other
    | .int => .other
    | .str => .text
    | .list => .sequence [.leaf .any]
    | .point => .other
    | .sub => .other
    | .pair => .tuple (.fixed [[.leaf .int], [.leaf .str]])
  any := .any
  object := .object
  listOf _ := .list
  attr
    | .leaf .point, 0 => some [.leaf .int]
    | .leaf .point, 1 => some [.leaf .str]
    | .leaf .sub, 0 => some [.leaf .int]
    | .leaf .sub, 1 => some [.leaf .str]
    | _, _ => none
  matchArgs
    | .leaf .point => .names [0, 1]
    | .leaf .sub => .names subArgs
    | _ => .missing
  selfMatch
    | .leaf .int => true
    | .leaf .str => true
    | _ => false

theorem isaOne_right {c : Nat} {t : Ty Base} {v : Val} (hv : t.Has run v) :
    (run.inst c v → Has run (isaOne c t).1 v) ∧ (¬ run.inst c v → Has run (isaOne c t).2 v) := by
  have self : Has run [t] v := has_single.mpr hv
  have base : run.inst c v → Has run (baseOf c) v := by
    rintro (⟨rfl, h⟩ | ⟨rfl, h⟩ | ⟨rfl, h⟩)
    · exact has_single.mpr h
    · exact has_single.mpr h
    · exact has_single.mpr h
  have noTup : run.isTuple v → ¬ run.inst c v := by
    rintro (⟨vs, rfl⟩ | ⟨a, b, rfl⟩) (⟨_, _, h⟩ | ⟨_, _, h⟩ | ⟨_, _, _, _, h⟩) <;> cases h
  match t with
  | .leaf .any => exact ⟨base, fun _ => self⟩
  | .leaf .object => exact ⟨base, fun _ => self⟩
  | .leaf .int =>
    simp only [isaOne]
    obtain ⟨n, rfl⟩ := hv
    split
    · rename_i h
      exact ⟨fun _ => self, fun hn => (hn (.inl ⟨h, n, rfl⟩)).elim⟩
    · rename_i h
      refine ⟨?_, fun _ => self⟩
      rintro (⟨h', _⟩ | ⟨_, _, h'⟩ | ⟨_, _, _, _, h'⟩)
      · exact absurd h' h
      · cases h'
      · cases h'
  | .leaf .str =>
    simp only [isaOne]
    obtain ⟨n, rfl⟩ := hv
    split
    · rename_i h
      exact ⟨fun _ => self, fun hn => (hn (.inr (.inl ⟨h, n, rfl⟩))).elim⟩
    · rename_i h
      refine ⟨?_, fun _ => self⟩
      rintro (⟨_, _, h'⟩ | ⟨h', _⟩ | ⟨_, _, _, _, h'⟩)
      · cases h'
      · exact absurd h' h
      · cases h'
  | .leaf .point =>
    simp only [isaOne]
    obtain ⟨s, x, y, rfl⟩ := hv
    split
    · rename_i h
      exact ⟨fun _ => self, fun hn => (hn (.inr (.inr ⟨h, s, x, y, rfl⟩))).elim⟩
    · rename_i h
      refine ⟨?_, fun _ => self⟩
      rintro (⟨_, _, h'⟩ | ⟨_, _, h'⟩ | ⟨h', _⟩)
      · cases h'
      · cases h'
      · exact absurd h' h
  | .leaf .sub =>
    simp only [isaOne]
    obtain ⟨x, y, rfl⟩ := hv
    split
    · rename_i h
      exact ⟨fun _ => self, fun hn => (hn (.inr (.inr ⟨h, true, x, y, rfl⟩))).elim⟩
    · rename_i h
      refine ⟨?_, fun _ => self⟩
      rintro (⟨_, _, h'⟩ | ⟨_, _, h'⟩ | ⟨h', _⟩)
      · cases h'
      · cases h'
      · exact absurd h' h
  | .leaf .list =>
    obtain ⟨vs, rfl⟩ := hv
    refine ⟨?_, fun _ => self⟩
    rintro (⟨_, _, h'⟩ | ⟨_, _, h'⟩ | ⟨_, _, _, _, h'⟩) <;> cases h'
  | .leaf .pair =>
    obtain ⟨a, b, rfl⟩ := hv
    exact ⟨fun h => absurd h (noTup (.inr ⟨a, b, rfl⟩)), fun _ => self⟩
  | .fixed _ => exact ⟨fun h => absurd h (noTup hv.1), fun _ => self⟩
  | .arb _ => exact ⟨fun h => absurd h (noTup hv.1), fun _ => self⟩
  | .unpack _ _ _ => exact ⟨fun h => absurd h (noTup hv.1), fun _ => self⟩
  | .seq _ =>
    obtain ⟨vs, hvs, _⟩ := hv
    refine ⟨?_, fun _ => self⟩
    rintro (⟨_, _, rfl⟩ | ⟨_, _, rfl⟩ | ⟨_, _, _, _, rfl⟩) <;> cases hvs

theorem sound (subArgs : List Nat) : Sound run (world subArgs) where
  value k T v hv := ⟨fun _ => hv, fun _ => hv⟩
  isa c T v hv := by
    obtain ⟨t, ht, hv⟩ := has_iff.mp hv
    have := isaOne_right (c := c) hv
    exact ⟨fun h => has_flatMap ht (this.1 h), fun h => has_flatMap ht (this.2 h)⟩
  any v := trivial
  object v := trivial
  listOf T vs l h _ := ⟨vs, h⟩
  fresh vs := ⟨_, rfl⟩
  attr t a v x T hv ha h := by
    simp only [world] at h
    split at h
    · obtain ⟨s, x', y, rfl⟩ := hv
      cases h
      cases ha
      exact has_single.mpr ⟨_, rfl⟩
    · obtain ⟨s, x', y, rfl⟩ := hv
      cases h
      cases ha
      exact has_single.mpr ⟨_, rfl⟩
    · obtain ⟨x', y, rfl⟩ := hv
      cases h
      cases ha
      exact has_single.mpr ⟨_, rfl⟩
    · obtain ⟨x', y, rfl⟩ := hv
      cases h
      cases ha
      exact has_single.mpr ⟨_, rfl⟩
    · cases h
  text b v hk hv := by
    cases b with
    | str => exact .inl hv
    | _ => cases hk
  tuple b v args hk hv := by
    cases b with
    | pair =>
      cases hk
      obtain ⟨a, b, rfl⟩ := hv
      exact ⟨.inr ⟨a, b, rfl⟩, _, rfl, hasAll_cons.mpr ⟨has_single.mpr ⟨a, rfl⟩,
        hasAll_cons.mpr ⟨has_single.mpr ⟨b, rfl⟩, rfl⟩⟩⟩
    | _ => cases hk
  sequence b v T hk hv := by
    cases b with
    | list =>
      cases hk
      obtain ⟨vs, rfl⟩ := hv
      exact ⟨vs, rfl, fun x _ => has_single.mpr trivial⟩
    | _ => cases hk
  noText v h := by
    rcases h with ⟨vs, rfl⟩ | ⟨a, b, rfl⟩ <;> rintro ⟨s, h⟩ <;> cases h
  tupleArgs b args hk := by
    cases b with
    | pair => cases hk; exact ⟨by simp, by simp⟩
    | _ => cases hk

theorem same_args : SameArgs run (world [0, 1]) := by
  intro c T t ht
  obtain ⟨u, _, hu⟩ := List.mem_flatMap.mp ht
  clear ht
  have hb : ∀ s ∈ baseOf c, match (world [0, 1]).matchArgs s with
      | .names ns => run.matchArgs c = some ns
      | .missing => run.matchArgs c = none
      | .unknown => True := by
    intro s hs
    unfold baseOf at hs
    split at hs
    · rename_i h; subst h; cases List.mem_singleton.mp hs; rfl
    · split at hs
      · rename_i h; subst h; cases List.mem_singleton.mp hs; rfl
      · split at hs
        · rename_i h; subst h; cases List.mem_singleton.mp hs; rfl
        · cases hs
  unfold isaOne at hu
  split at hu
  · exact hb t hu
  · exact hb t hu
  · split at hu
    · rename_i h; subst h; rw [List.mem_singleton.mp hu]; rfl
    · cases hu
  · split at hu
    · rename_i h; subst h; rw [List.mem_singleton.mp hu]; rfl
    · cases hu
  · split at hu
    · rename_i h; subst h; rw [List.mem_singleton.mp hu]; rfl
    · cases hu
  · split at hu
    · rename_i h; subst h; rw [List.mem_singleton.mp hu]; rfl
    · cases hu
  · cases hu

theorem args_known : ArgsKnown (world [0, 1]) := by
  intro t
  simp only [world]
  split <;> simp

/-- Everything but tuples with an unpacked part, `Sequence` and `object`. -/
inductive Safe : Ty Base → Prop
  | leaf {b : Base} : b ≠ .object → Safe (.leaf b)
  | fixed {Ts : List (List (Ty Base))} : (∀ T ∈ Ts, ∀ u ∈ T, Safe u) → Safe (.fixed Ts)
  | arb {T : List (Ty Base)} : (∀ u ∈ T, Safe u) → Safe (.arb T)

theorem isaOne_types {c : Nat} {t : Ty Base} : (∀ u ∈ (isaOne c t).1, u = t ∨ u ∈ baseOf c) ∧
    ∀ u ∈ (isaOne c t).2, u = t := by
  have one : ∀ (t : Ty Base), ∀ u ∈ [t], u = t := fun t u h => List.mem_singleton.mp h
  unfold isaOne
  split
  · exact ⟨fun u h => .inr h, one _⟩
  · exact ⟨fun u h => .inr h, one _⟩
  all_goals first
    | (split
       · exact ⟨fun u h => .inl (one _ u h), fun u h => (nomatch h)⟩
       · exact ⟨(fun u h => nomatch h), one _⟩)
    | exact ⟨(fun u h => nomatch h), one _⟩

theorem base_safe {c : Nat} : ∀ u ∈ baseOf c, Safe u := by
  intro u hu
  unfold baseOf at hu
  split at hu
  · rw [List.mem_singleton.mp hu]; exact .leaf (by simp)
  · split at hu
    · rw [List.mem_singleton.mp hu]; exact .leaf (by simp)
    · split at hu
      · rw [List.mem_singleton.mp hu]; exact .leaf (by simp)
      · cases hu

theorem star_safe (subArgs : List Nat) : StarSafe run (world subArgs) Safe where
  value k T h := h
  isa c T h := by
    refine ⟨fun t ht => ?_, fun t ht => ?_⟩
    · obtain ⟨u, hu, ht⟩ := List.mem_flatMap.mp ht
      rcases isaOne_types.1 t ht with rfl | ht
      · exact h _ hu
      · exact base_safe t ht
    · obtain ⟨u, hu, ht⟩ := List.mem_flatMap.mp ht
      rw [isaOne_types.2 t ht]
      exact h _ hu
  any := .leaf (by simp [world])
  attr t a T _ h := by
    simp only [world] at h
    split at h
    case h_5 => cases h
    all_goals
      cases h
      intro u hu
      rw [List.mem_singleton.mp hu]
      exact .leaf (by simp)
  fixed Ts h := by cases h; assumption
  arb T h := by cases h; assumption
  noUnpack bs m as h := by cases h
  noSeq T h := by cases h
  noOther b v h hk hv := by
    cases b with
    | object => cases h; rename_i h; exact absurd rfl h
    | int => obtain ⟨n, rfl⟩ := hv; exact .inr rfl
    | point => obtain ⟨s, x, y, rfl⟩ := hv; exact .inr rfl
    | sub => obtain ⟨x, y, rfl⟩ := hv; exact .inr rfl
    | _ => cases hk
  tuple b args h hk := by
    cases b with
    | pair =>
      cases hk
      refine .fixed fun T hT u hu => ?_
      simp only [List.mem_cons, List.not_mem_nil, or_false] at hT
      rcases hT with rfl | rfl <;> (rw [List.mem_singleton.mp hu]; exact .leaf (by simp))
    | _ => cases hk
  sequence b T h hk := by
    cases b with
    | list =>
      cases hk
      intro u hu
      rw [List.mem_singleton.mp hu]
      exact .leaf (by simp)
    | _ => cases hk

theorem narrows (subArgs : List Nat) : Narrows run (world subArgs) where
  valueThen _ _ _ h := h
  valueElse _ _ _ h := h
  isaThen c T v h := by
    obtain ⟨u, hu, hv⟩ := has_iff.mp h
    obtain ⟨t, ht, hu⟩ := List.mem_flatMap.mp hu
    refine has_iff.mpr ⟨t, ht, ?_⟩
    unfold isaOne at hu
    split at hu
    · trivial
    · trivial
    all_goals first
      | (cases hu; done)
      | (split at hu
         · rw [← List.mem_singleton.mp hu]; exact hv
         · cases hu)
  isaElse c T v h := by
    obtain ⟨u, hu, hv⟩ := has_iff.mp h
    obtain ⟨t, ht, hu⟩ := List.mem_flatMap.mp hu
    rw [isaOne_types.2 u hu] at hv
    exact has_iff.mpr ⟨t, ht, hv⟩

/-- Tuples, lists and texts. -/
def Tuples : Ty Base → Prop
  | .leaf b => b = .list ∨ b = .str
  | .unpack _ _ _ => False
  | _ => True

theorem sequences (subArgs : List Nat) : Sequences (world subArgs) Tuples where
  value k T h := h
  isa c T h := by
    refine ⟨fun t ht => ?_, fun t ht => ?_⟩
    · obtain ⟨u, hu, ht⟩ := List.mem_flatMap.mp ht
      have hT := h u hu
      unfold isaOne at ht
      split at ht
      · rcases hT with h | h <;> cases h
      · rcases hT with h | h <;> cases h
      all_goals first
        | (cases ht; done)
        | (split at ht
           · rw [List.mem_singleton.mp ht]; exact hT
           · cases ht)
    · obtain ⟨u, hu, ht⟩ := List.mem_flatMap.mp ht
      rw [isaOne_types.2 t ht]
      exact h _ hu
  noUnpack bs m as h := h
  noOther b h := by rcases h with rfl | rfl <;> simp [world]
  noTuple b args h := by rcases h with rfl | rfl <;> simp [world]

example {v : Val} : let T : Un Base := [.leaf .str, .fixed [[.leaf .int, .leaf .str]]]
    Has run (guards (world [0, 1]) (.seq [.cls cInt [] []] none []) T).truthy v → Has run T v :=
  (inside_partial (p := .seq [.cls cInt [] []] none [])
    (T := [.leaf .str, .fixed [[.leaf .int, .leaf .str]]]) (narrows _)
    (.inr ⟨⟨⟨trivial, trivial⟩, trivial⟩, Tuples, sequences _, by
    intro t ht
    simp only [List.mem_cons, List.not_mem_nil, or_false] at ht
    rcases ht with rfl | rfl
    · exact .inr rfl
    · trivial⟩)).1

/-- `int | str | Point` -/
abbrev subject : Un Base := [.leaf .int, .leaf .str, .leaf .point]

/-- `case int() | str(): …; case Point(a, b): …` -/
abbrev cases : List (Pat × Option (Guard Base × GuardRun Val)) :=
  [(.or [.cls cInt [] [], .cls cStr [] []], none),
   (.cls cPoint [.capture 7, .capture 8] [], none)]

theorem point_total : PosTotal run cPoint [.capture 7, .capture 8] := by
  refine .inr (.inl ⟨[0, 1], rfl, Nat.le_refl _, ?_, ?_⟩)
  · rintro v (⟨h, _⟩ | ⟨h, _⟩ | ⟨_, s, x, y, rfl⟩)
    · cases h
    · cases h
    · intro n hn
      simp only [List.mem_cons, List.not_mem_nil, or_false] at hn
      rcases hn with rfl | rfl <;> rfl
  · intro p hp
    simp only [List.mem_cons, List.not_mem_nil, or_false] at hp
    rcases hp with rfl | rfl <;> trivial

theorem cases_ok : ∀ c ∈ cases, CaseOk run c.1 c.2 := by
  intro c hc
  simp only [List.mem_cons, List.not_mem_nil, or_false] at hc
  rcases hc with rfl | rfl
  · exact ⟨⟨⟨.inl rfl, by simp⟩, ⟨.inl rfl, by simp⟩, trivial⟩,
      ⟨⟨⟨trivial, trivial⟩, ⟨trivial, trivial⟩, trivial⟩, ⟨.inl rfl, by simp⟩, ⟨.inl rfl, by simp⟩,
        trivial⟩, by simp⟩
  · exact ⟨⟨point_total, by simp⟩, ⟨⟨trivial, trivial, trivial⟩, trivial⟩, by simp⟩

theorem cases_stars : CasesOk run (world [0, 1]) cases subject := by
  left
  intro c hc
  simp only [List.mem_cons, List.not_mem_nil, or_false] at hc
  rcases hc with rfl | rfl
  · exact ⟨⟨trivial, trivial⟩, ⟨trivial, trivial⟩, trivial⟩
  · exact ⟨⟨trivial, trivial, trivial⟩, trivial⟩

theorem cases_rest : restOfCases (world [0, 1]) (erase cases) subject = [] := by rfl

/-- The statement is exhaustive, so a case is executed for each point. -/
example (x : Nat) (y : String) : ∃ (i : Nat) (σ : Binds Val),
    Executes run cases (.point false x y) i σ :=
  exhaustive_partial (sound _) cases_ok cases_stars
    (.inr (.inr (.inl ⟨_, _, _, rfl⟩))) cases_rest

/-- In the second case the names have the types of the attributes. -/
example (x : Nat) (y : String) (i : Nat) (σ : Binds Val)
    (h : Executes run cases (.point false x y) i σ) :
    ∃ (p : Pat) (g : Option (Guard Base × GuardRun Val)), cases[i]? = some (p, g) ∧
      Bound run σ (guards (world [0, 1]) p
        (restOfCases (world [0, 1]) (erase (cases.take i)) subject)).caps := by
  obtain ⟨p, g, h1, _, h2⟩ := body_partial (sound _) same_args h cases_ok cases_stars
    (.inr (.inr (.inl ⟨_, _, _, rfl⟩)))
  exact ⟨p, g, h1, h2 args_known⟩

/-- `case Point(a, b, c)` has too many arguments, so points are left. -/
example : (.leaf .point) ∈ ((world [0, 1]).isa cPoint subject).1 ∧
    (world [0, 1]).matchArgs (.leaf .point) = .names [0, 1] ∧
    (.leaf .point) ∈
      (guards (world [0, 1]) (.cls cPoint [.capture 7, .capture 8, .capture 9] []) subject).falsey :=
  ⟨by simp [world, isaOne, subject, cPoint], rfl,
   class_impossible (by simp [world, isaOne, subject, cPoint])
    (.inr ⟨[0, 1], rfl, .inl (by decide)⟩)⟩

example : (guards (world [0, 1]) (.cls cPoint [.capture 7, .capture 8] []) subject).caps =
    [(7, [.leaf .int]), (8, [.leaf .str])] := rfl

/-- `case (a, *b, 3)` with `tuple[int, str, str, int]` -/
abbrev starred : Pat := .seq [.capture 7] (some (some 8)) [.value 3]

abbrev four : Un Base := [.fixed [[.leaf .int], [.leaf .str], [.leaf .str], [.leaf .int]]]

theorem four_safe : ∀ t ∈ four, Safe t := by
  intro t ht
  rw [List.mem_singleton.mp ht]
  refine .fixed fun T hT u hu => ?_
  simp only [List.mem_cons, List.not_mem_nil, or_false] at hT
  rcases hT with rfl | rfl | rfl | rfl <;> (rw [List.mem_singleton.mp hu]; exact .leaf (by simp))

theorem starred_ok : StarsOk run (world [0, 1]) starred four := .inr ⟨Safe, star_safe _, four_safe⟩

example {v : Val} {σ : Binds Val} (hv : Has run four v) (hm : Matches run starred v σ) :
    Has run (guards (world [0, 1]) starred four).truthy v ∧
    Bound run σ (guards (world [0, 1]) starred four).caps :=
  ⟨then_partial (sound _) same_args starred_ok hv hm,
    names_partial (sound _) same_args args_known ⟨⟨trivial, trivial⟩, trivial, trivial⟩ starred_ok
      hv hm⟩

example {v : Val} (hv : Has run four v) (hf : Fails run starred v) :
    Has run (guards (world [0, 1]) starred four).falsey v :=
  else_partial (sound _) ⟨⟨trivial, trivial⟩, trivial, trivial⟩ starred_ok hv hf

example : (guards (world [0, 1]) starred four).caps =
    [(7, [.leaf .int]), (8, [.leaf .list])] ∧
    (guards (world [0, 1]) starred four).falsey = four := ⟨rfl, rfl⟩

/-- `case (a,)` matches no value of `tuple[int, str, str, int]`. -/
example {v : Val} (hv : Has run four v) : Fails run (.seq [.capture 7] none []) v :=
  never_matches_partial (sound [0, 1]) same_args
    (.inl ⟨rfl, rfl, trivial, trivial⟩) hv rfl

/-! ## Where the checker is wrong -/

/-- `case Point(x=0)` leaves nothing of `Point`, although points with another `x` do not match:
the result of the arguments is not used for what is left (flow_analysis.rs 3543-3553). -/
theorem refutable_argument_violation :
    let p : Pat := .cls cPoint [] [(0, .value 0)]
    let v : Val := .point false 1 "a"
    Sound run (world [0, 1]) ∧ SameArgs run (world [0, 1]) ∧ Starless p ∧
    Has run [.leaf .point] v ∧ Fails run p v ∧
    ¬ Has run (guards (world [0, 1]) p [.leaf .point]).falsey v := by
  refine ⟨sound _, same_args, ⟨trivial, trivial, trivial⟩, .inl ⟨_, _, _, rfl⟩, ?_, id⟩
  rintro σ ⟨_, σ1, σ2, _, ⟨x, σ3, σ4, hx, hm, _⟩, _⟩
  cases hx
  cases hm.1

/-- `case int(0)` leaves nothing of `int`, although other numbers do not match. -/
theorem self_match_violation :
    let p : Pat := .cls cInt [.value 0] []
    let v : Val := .int 1
    Sound run (world [0, 1]) ∧ SameArgs run (world [0, 1]) ∧ Starless p ∧
    Has run [.leaf .int] v ∧ Fails run p v ∧
    ¬ Has run (guards (world [0, 1]) p [.leaf .int]).falsey v := by
  refine ⟨sound _, same_args, ⟨⟨trivial, trivial⟩, trivial⟩, .inl ⟨_, rfl⟩, ?_, id⟩
  rintro σ ⟨_, σ1, σ2, ⟨_, _, hm⟩, _⟩
  cases hm.1

/-- `case Point(x=0, y=a) | Point(x=a)`: the second alternative is checked with what the first one
leaves, which is `Never`, so the name has only the type of `y` although Python binds `x`, too. -/
theorem refutable_alternative_violation :
    let p : Pat := .or [.cls cPoint [] [(0, .value 0), (1, .capture 7)],
      .cls cPoint [] [(0, .capture 7)]]
    let v : Val := .point false 1 "a"
    Sound run (world [0, 1]) ∧ SameArgs run (world [0, 1]) ∧ Starless p ∧
    Has run [.leaf .point] v ∧ Matches run p v [(7, .int 1)] ∧
    ¬ Bound run [(7, (.int 1 : Val))] (guards (world [0, 1]) p [.leaf .point]).caps := by
  refine ⟨sound _, same_args, ⟨⟨trivial, trivial, trivial, trivial⟩, ⟨trivial, trivial, trivial⟩,
    trivial⟩, .inl ⟨_, _, _, rfl⟩, ?_, ?_⟩
  · refine .inr ⟨?_, .inl ⟨.inr (.inr ⟨rfl, _, _, _, rfl⟩), [], [(7, .int 1)], rfl,
      ⟨.int 1, [(7, .int 1)], [], rfl, rfl, rfl, rfl⟩, rfl⟩⟩
    rintro σ ⟨_, σ1, σ2, _, ⟨x, σ3, σ4, hx, hm, _⟩, _⟩
    cases hx
    cases hm.1
  · intro h
    obtain ⟨T, hT, hx⟩ := h 7 (.int 1) List.mem_cons_self
    have e : (guards (world [0, 1]) (.or [.cls cPoint [] [(0, .value 0), (1, .capture 7)],
      .cls cPoint [] [(0, .capture 7)]]) [.leaf .point]).caps = [(7, [.leaf .str])] := rfl
    rw [e] at hT
    cases List.mem_singleton.mp hT
    rcases hx with ⟨n, h⟩ | h
    · cases h
    · exact h

/-- `case (a, b, *c)` leaves nothing of `tuple[int, *tuple[str, ...]]`, although tuples with one
item do not match (flow_analysis.rs 3872-3882). -/
theorem star_rest_violation :
    let p : Pat := .seq [.wild, .wild] (some none) []
    let T : Un Base := [.unpack [[.leaf .int]] [.leaf .str] []]
    let v : Val := .tup [.int 1]
    Sound run (world [0, 1]) ∧ ArgsTotal run p ∧ Has run T v ∧ Fails run p v ∧
    ¬ Has run (guards (world [0, 1]) p T).falsey v := by
  refine ⟨sound _, ⟨⟨trivial, trivial, trivial⟩, trivial⟩, .inl ⟨.inl ⟨_, rfl⟩, [.int 1], [], [],
    rfl, ⟨_, _, rfl, .inl ⟨_, rfl⟩, rfl⟩, (fun _ h => nomatch h), rfl⟩, ?_, id⟩
  rintro σ ⟨_, v1, v2, v3, σ1, σ2, σ3, hi, hm, _⟩
  have h1 := matchesAll_length hm
  injection hi with hi
  have := congrArg List.length hi
  simp at this h1
  omega

/-- `case (a, *b, c)` narrows `tuple[int, *tuple[str, ...], str]` to a tuple with four and more
items: the entries of the tuple are there twice (flow_analysis.rs 3854-3871). -/
theorem star_then_violation :
    let p : Pat := .seq [.wild] (some none) [.wild]
    let T : Un Base := [.unpack [[.leaf .int]] [.leaf .str] [[.leaf .str]]]
    let v : Val := .tup [.int 1, .str "a"]
    Sound run (world [0, 1]) ∧ OrsTotal run p ∧ Has run T v ∧ Matches run p v [] ∧
    ¬ Has run (guards (world [0, 1]) p T).truthy v := by
  refine ⟨sound _, ⟨⟨trivial, trivial⟩, trivial, trivial⟩, .inl ⟨.inl ⟨_, rfl⟩, [.int 1], [],
    [.str "a"], rfl, ⟨_, _, rfl, .inl ⟨_, rfl⟩, rfl⟩, (fun _ h => nomatch h),
    ⟨_, _, rfl, .inl ⟨_, rfl⟩, rfl⟩⟩, ?_, ?_⟩
  · exact ⟨(by rintro ⟨_, h⟩; cases h), [.int 1], [], [.str "a"], [], [], [], rfl,
      ⟨_, _, [], [], rfl, rfl, ⟨rfl, rfl⟩, rfl⟩, ⟨_, _, [], [], rfl, rfl, ⟨rfl, rfl⟩, rfl⟩,
      (fun h => nomatch h), rfl, rfl⟩
  · rintro (⟨_, v1, v2, v3, hi, h1, _, h3⟩ | h)
    · have l1 := hasAll_length h1
      have l3 := hasAll_length h3
      injection hi with hi
      have := congrArg List.length hi
      simp at this l1 l3
      omega
    · exact h

/-- `case (a, *b)` with `tuple[*tuple[int, ...], str]`: the name has the type `int`, although it
may be the last item (matching/mod.rs 434-467). -/
theorem star_name_violation :
    let p : Pat := .seq [.capture 7] (some none) []
    let T : Un Base := [.unpack [] [.leaf .int] [[.leaf .str]]]
    let v : Val := .tup [.str "a"]
    Sound run (world [0, 1]) ∧ ArgsKnown (world [0, 1]) ∧ Has run T v ∧
    Matches run p v [(7, .str "a")] ∧
    ¬ Bound run [(7, (.str "a" : Val))] (guards (world [0, 1]) p T).caps := by
  refine ⟨sound _, args_known, .inl ⟨.inl ⟨_, rfl⟩, [], [], [.str "a"], rfl, rfl,
    (fun _ h => nomatch h), ⟨_, _, rfl, .inl ⟨_, rfl⟩, rfl⟩⟩, ?_, ?_⟩
  · exact ⟨(by rintro ⟨_, h⟩; cases h), [.str "a"], [], [], [(7, .str "a")], [], [], rfl,
      ⟨_, _, [(7, .str "a")], [], rfl, rfl, ⟨rfl, rfl⟩, rfl⟩, ⟨rfl, rfl⟩,
      (fun h => nomatch h), rfl, rfl⟩
  · intro h
    obtain ⟨T, hT, hx⟩ := h 7 (.str "a") List.mem_cons_self
    have e : (guards (world [0, 1]) (.seq [.capture 7] (some none) [])
      [.unpack [] [.leaf .int] [[.leaf .str]]]).caps = [(7, [.leaf .int])] := rfl
    rw [e] at hT
    cases List.mem_singleton.mp hT
    rcases hx with ⟨n, h⟩ | h
    · cases h
    · exact h

/-- `case [int(), *_]` narrows `Sequence[int | str]` to `Sequence[int]`, although only the first
item is a number: the starred pattern does not count (flow_analysis.rs 3744-3776). -/
theorem star_item_violation :
    let p : Pat := .seq [.cls cInt [] []] (some none) []
    let T : Un Base := [.seq [.leaf .int, .leaf .str]]
    let v : Val := .list [.int 1, .str "a"]
    Sound run (world [0, 1]) ∧ SameArgs run (world [0, 1]) ∧ OrsTotal run p ∧ Has run T v ∧
    Matches run p v [] ∧ ¬ Has run (guards (world [0, 1]) p T).truthy v := by
  refine ⟨sound _, same_args, ⟨⟨⟨trivial, trivial⟩, trivial⟩, trivial⟩, .inl ⟨_, rfl, ?_⟩, ?_, ?_⟩
  · intro x hx
    simp only [List.mem_cons, List.not_mem_nil, or_false] at hx
    rcases hx with rfl | rfl
    · exact .inl ⟨_, rfl⟩
    · exact .inr (.inl ⟨_, rfl⟩)
  · exact ⟨(by rintro ⟨_, h⟩; cases h), [.int 1], [.str "a"], [], [], [], [], rfl,
      ⟨_, _, [], [], rfl, ⟨.inl ⟨rfl, _, rfl⟩, [], [], rfl, rfl, rfl⟩, ⟨rfl, rfl⟩, rfl⟩, ⟨rfl, rfl⟩,
      (fun h => nomatch h), rfl, rfl⟩
  · rintro (⟨vs, hi, h⟩ | h)
    · cases hi
      rcases h (.str "a") (by simp) with ⟨n, h⟩ | h
      · cases h
      · exact h
    · exact h

/-- `case [*_]` narrows `Sequence[int]` to `Sequence[Never]`. -/
theorem star_only_violation :
    let p : Pat := .seq [] (some none) []
    let T : Un Base := [.seq [.leaf .int]]
    let v : Val := .list [.int 1]
    Sound run (world [0, 1]) ∧ Has run T v ∧ Matches run p v [] ∧
    ¬ Has run (guards (world [0, 1]) p T).truthy v := by
  refine ⟨sound _, .inl ⟨_, rfl, ?_⟩, ?_, ?_⟩
  · intro x hx
    rw [List.mem_singleton.mp hx]
    exact .inl ⟨_, rfl⟩
  · exact ⟨(by rintro ⟨_, h⟩; cases h), [], [.int 1], [], [], [], [], rfl, ⟨rfl, rfl⟩, ⟨rfl, rfl⟩,
      (fun h => nomatch h), rfl, rfl⟩
  · rintro (⟨vs, hi, h⟩ | h)
    · cases hi
      exact h (.int 1) (by simp)
    · exact h

/-- `case Point(a)` with a subclass of `Point` that has another `__match_args__`: the checker uses
the one of the subclass (flow_analysis.rs 3452-3470), Python the one of `Point`. -/
theorem subclass_args_violation :
    let p : Pat := .cls cPoint [.capture 7] []
    let v : Val := .point true 1 "a"
    Sound run (world [1, 0]) ∧ Has run [.leaf .sub] v ∧ Matches run p v [(7, .int 1)] ∧
    ¬ Bound run [(7, (.int 1 : Val))] (guards (world [1, 0]) p [.leaf .sub]).caps := by
  refine ⟨sound _, .inl ⟨_, _, rfl⟩, ⟨.inr (.inr ⟨rfl, _, _, _, rfl⟩), [(7, .int 1)], [],
    ⟨.int 1, [(7, .int 1)], [], rfl, rfl, rfl, rfl⟩, rfl, rfl⟩, ?_⟩
  intro h
  obtain ⟨T, hT, hx⟩ := h 7 (.int 1) List.mem_cons_self
  have e : (guards (world [1, 0]) (.cls cPoint [.capture 7] []) [.leaf .sub]).caps =
    [(7, [.leaf .str])] := rfl
  rw [e] at hT
  cases List.mem_singleton.mp hT
  rcases hx with ⟨n, h⟩ | h
  · cases h
  · exact h

/-- `case int() as x if f(x)` with `int | str`, where `f` says that `x` is not a number if it
returns false, or whatever it says: what is left is only what the guard leaves of `x`, the members
of the union that the pattern does not match are lost (flow_analysis.rs 2826-2851). -/
theorem guard_violation :
    let g : Guard Base := ⟨fun n => if n = 7 then some [.leaf .int] else none, false⟩
    let holds : GuardRun Val := fun σ => (7, .int 0) ∈ σ
    let cs : List (Pat × Option (Guard Base × GuardRun Val)) :=
      [(.as (.cls cInt [] []) 7, some (g, holds))]
    Sound run (world [0, 1]) ∧
    (∀ (σ : Binds Val) (v : Val), Matches run (.as (.cls cInt [] []) 7) v σ → ¬ holds σ →
      ∀ (x : Val), (7, x) ∈ σ → Has run [.leaf .int] x) ∧
    Has run [.leaf .int, .leaf .str] (.str "a") ∧ FallsThrough run cs (.str "a") ∧
    ¬ Has run (restOfCases (world [0, 1]) (erase cs) [.leaf .int, .leaf .str]) (.str "a") := by
  refine ⟨sound _, ?_, .inr (.inl ⟨_, rfl⟩), .fails ?_ .nil, ?_⟩
  · rintro σ v ⟨σ', ⟨hi, σ1, σ2, rfl, rfl, rfl⟩, rfl⟩ _ x hx
    simp only [List.append_nil, List.nil_append, List.mem_singleton, Prod.mk.injEq, true_and] at hx
    subst hx
    rcases hi with ⟨_, h⟩ | ⟨h, _⟩ | ⟨h, _⟩
    · exact .inl h
    · cases h
    · cases h
  · rintro σ ⟨σ', ⟨hi, _⟩, _⟩
    rcases hi with ⟨_, _, h⟩ | ⟨h, _⟩ | ⟨h, _⟩ <;> cases h
  · rintro (⟨n, h⟩ | h)
    · cases h
    · exact h

/-- `case (a, b)` with a named tuple: the subject becomes a plain tuple, the class is lost. -/
theorem named_tuple_violation :
    let p : Pat := .seq [.wild, .wild] none []
    let v : Val := .tup [.int 1, .str "a"]
    Narrows run (world [0, 1]) ∧ Has run (guards (world [0, 1]) p [.leaf .pair]).truthy v ∧
    ¬ Has run [.leaf .pair] v := by
  refine ⟨narrows _, .inl ⟨.inl ⟨_, rfl⟩, _, rfl, ⟨_, _, rfl, .inl ⟨_, rfl⟩,
    ⟨_, _, rfl, .inl ⟨_, rfl⟩, rfl⟩⟩⟩, ?_⟩
  rintro (⟨a, b, h⟩ | h)
  · cases h
  · exact h

/-- `case [a]` with `int`: the subject becomes a `Sequence[object]` instead of nothing or an
intersection, so that all lists seem possible (flow_analysis.rs 3600-3605). -/
theorem sequence_of_class_violation :
    let p : Pat := .seq [.wild] none []
    let v : Val := .list [.int 1]
    Narrows run (world [0, 1]) ∧ Has run (guards (world [0, 1]) p [.leaf .int]).truthy v ∧
    ¬ Has run [.leaf .int] v := by
  refine ⟨narrows _, .inl ⟨_, rfl, fun x _ => .inl trivial⟩, ?_⟩
  rintro (⟨a, h⟩ | h)
  · cases h
  · exact h

end Sample

end Verif.Pattern
