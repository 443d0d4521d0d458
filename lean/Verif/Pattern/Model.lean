/-!
# `match` statements (model)

Models `crates/zuban_python/src/file/flow_analysis.rs`: what the type checker concludes about the
subject and about the names of a pattern, if the pattern matches and if it does not.

Simplified: a union is the list of its members and `Never` is the empty list (`simplified_union`
is modelled in `Verif.Union`); a name has the union of all types that are assigned to it
(`merge_or` and `merge_conditional` of frames); mapping patterns, two starred patterns and
`TypeVarTuple` are left out. The split by a class (`Verif.Split`), the split by a value
(`Verif.Equality`) and lookups are parameters.
-/

namespace Verif.Pattern

/-- `Type`, type_/mod.rs, as far as patterns look into it. -/
inductive Ty (B : Type) where
  /-- everything that is not listed below -/
  | leaf (b : B)
  /-- `TupleArgs::FixedLen` -/
  | fixed (items : List (List (Ty B)))
  /-- `TupleArgs::ArbitraryLen` -/
  | arb (item : List (Ty B))
  /-- `TupleArgs::WithUnpack` with `TupleUnpack::ArbitraryLen` -/
  | unpack (before : List (List (Ty B))) (mid : List (Ty B)) (after : List (List (Ty B)))
  /-- `collections.abc.Sequence[T]` -/
  | seq (item : List (Ty B))

/-- A union. -/
abbrev Un (B : Type) := List (Ty B)

/-- `PatternKind` and `Pattern`, parsa_python_cst/src/match_stmt.rs. -/
inductive Pat where
  | capture (n : Nat)
  | wild
  /-- a literal or a dotted name -/
  | value (k : Nat)
  | as (p : Pat) (n : Nat)
  | or (ps : List Pat)
  /-- a class with positional patterns and keyword patterns -/
  | cls (c : Nat) (pos : List Pat) (kw : List (Nat × Pat))
  /-- `[p, q, *name, r]`; `some none` is `*_` -/
  | seq (before : List Pat) (star : Option (Option Nat)) (after : List Pat)

/-- What `find_guards_in_sequence_pattern`, flow_analysis.rs 3556-3608, distinguishes. -/
inductive Kind (B : Type) where
  /-- `str`, `bytes`, `bytearray`, `None` and literals -/
  | text
  | any
  /-- a named tuple or a class with a tuple as base class -/
  | tuple (args : Ty B)
  /-- a class with `Sequence[T]` as base class -/
  | sequence (item : Un B)
  | other

/-- `__match_args__`: there is none, a tuple of literals, something else. -/
inductive MatchArgs where
  | missing
  | names (ns : List Nat)
  | unknown

/-- What is modelled elsewhere. -/
structure World (B : Type) where
  /-- `split_off_singleton`, `split_off_enum_member`, `split_for_dotted_pattern_name` -/
  value : Nat → Un B → Un B × Un B
  /-- `split_and_intersect` -/
  isa : Nat → Un B → Un B × Un B
  kind : B → Kind B
  any : B
  object : B
  /-- `list[T]` -/
  listOf : Un B → B
  /-- The type of an attribute. -/
  attr : Ty B → Nat → Option (Un B)
  matchArgs : Ty B → MatchArgs
  /-- `is_self_match_type`, flow_analysis.rs 5135-5155 -/
  selfMatch : Ty B → Bool

/-- `PatternResult` and the types that are assigned to names. -/
structure Res (B : Type) where
  truthy : Un B
  falsey : Un B
  caps : List (Nat × Un B)

/-- The result for a list of patterns: the types if they match (`none` if one of them cannot
match), whether none of them can fail, and the names. -/
structure Zip (B : Type) where
  types : Option (List (Un B))
  sure : Bool
  caps : List (Nat × Un B)

/-- The result for the arguments of a class pattern. -/
inductive Args where
  | ok | mismatch | tooMany | unknown
  deriving DecidableEq

/-- The names of a starred pattern. -/
def starCaps {B : Type} (star : Option (Option Nat)) (t : Ty B) : List (Nat × Un B) :=
  match star with
  | some (some n) => [(n, [t])]
  | _ => []

/-- `unpack_next_with_customized_after`, matching/mod.rs 434-467, for a tuple with an unpacked
part: the type of the entry number `i`, with the indexes `before_index` and `after_index`. -/
def next {B : Type} (err : Ty B) (bs : List (Un B)) (m : Un B) (as : List (Un B))
    (normal : Nat) (starred : Bool) (i bi ai : Nat) : Un B × Nat × Nat :=
  match bs[bi]? with
  | some t => (t, bi + 1, ai)
  | none =>
    if normal - i + (if starred then 1 else 0) > as.length then (m, bi, ai)
    else
      match as[ai]? with
      | some t => (t, bi, ai + 1)
      | none => ([err], bi, ai)

/-- The types of `count` entries, from the entry number `i` on. -/
def nexts {B : Type} (err : Ty B) (bs : List (Un B)) (m : Un B) (as : List (Un B))
    (normal : Nat) (starred : Bool) : Nat → Nat → Nat → Nat → List (Un B) × Nat
  | 0, _, bi, _ => ([], bi)
  | count + 1, i, bi, ai =>
    let (t, bi, ai) := next err bs m as normal starred i bi ai
    let (ts, last) := nexts err bs m as normal starred count (i + 1) bi ai
    (t :: ts, last)

/-- Two lists of patterns with something between them: the loop of
`assign_tup_for_sequence_patterns`, flow_analysis.rs 3829-3871, returns at the first pattern that
cannot match. -/
def Zip.andThen {B : Type} (z : Zip B) (caps : List (Nat × Un B)) (z' : Zip B)
    (build : List (Un B) → List (Un B) → Ty B) (all : Ty B) (exact : Bool) : Res B :=
  match z.types with
  | none => ⟨[], [all], z.caps⟩
  | some ts =>
    match z'.types with
    | none => ⟨[], [all], z.caps ++ caps ++ z'.caps⟩
    | some ts' =>
      ⟨[build ts ts'], if z.sure && z'.sure && exact then [] else [all],
        z.caps ++ caps ++ z'.caps⟩

/-- The union of the results for the members of a union, `run_pattern_for_each_type`,
flow_analysis.rs 5085-5121. -/
def gather {B : Type} (rs : List (Res B)) : Res B :=
  ⟨rs.flatMap (·.truthy), rs.flatMap (·.falsey), rs.flatMap (·.caps)⟩

/-- What becomes of the two lists of patterns of a sequence pattern: `zip` with the types of the
entries, `all` with one type for all entries. -/
structure Parts (B : Type) where
  before : Nat
  after : Nat
  zipBefore : List (Un B) → Zip B
  zipAfter : List (Un B) → Zip B
  allBefore : Un B → Un B × List (Nat × Un B)
  allAfter : Un B → Un B × List (Nat × Un B)
  star : Option (Option Nat)

variable {B : Type} (w : World B)

/-- The names that `assign_sequence_patterns` assigns, flow_analysis.rs 3744-3776. -/
def Parts.caps (ps : Parts B) (item : Un B) : List (Nat × Un B) :=
  (ps.allBefore item).2 ++ starCaps ps.star (.leaf (w.listOf item)) ++ (ps.allAfter item).2

/-- The result of `assign_sequence_patterns`, flow_analysis.rs 3744-3776: the starred pattern does
not count. -/
def Parts.item (ps : Parts B) (item : Un B) : Un B :=
  (ps.allBefore item).1 ++ (ps.allAfter item).1

/-- `assign_tup_for_sequence_patterns`, flow_analysis.rs 3778-3883. -/
def tuplePart (ps : Parts B) (t : Ty B) : Res B :=
  let normal := ps.before + ps.after
  match t with
  | .arb item => ⟨[t], [t], ps.caps w item⟩
  | .fixed items =>
    if (ps.star.isNone ∧ items.length > normal) ∨ items.length < normal then ⟨[], [t], []⟩
    else
      let mid := (items.drop ps.before).take (items.length - normal)
      (ps.zipBefore (items.take ps.before)).andThen
        (starCaps ps.star (.leaf (w.listOf mid.flatten)))
        (ps.zipAfter (items.drop (items.length - ps.after)))
        (fun ts ts' => .fixed (ts ++ mid ++ ts')) t true
  | .unpack bs m as =>
    if ps.star.isNone ∧ bs.length + as.length > normal then ⟨[], [t], []⟩
    else
      let ts := nexts (.leaf w.any) bs m as normal ps.star.isSome ps.before 0 0 0
      let ts' := nexts (.leaf w.any) bs m as normal ps.star.isSome ps.after (ps.before + 1)
        bs.length (as.length - ps.after)
      let rest := (bs.drop ts.2).flatten ++ m ++ (as.take (as.length - ps.after)).flatten
      (ps.zipBefore ts.1).andThen (starCaps ps.star (.leaf (w.listOf rest)))
        (ps.zipAfter ts'.1)
        (fun us us' =>
          if ps.star.isSome then .unpack (us ++ bs) m (as ++ us') else .fixed (us ++ us'))
        t ps.star.isSome
  | t => ⟨[], [t], []⟩

/-- The closure of `find_guards_in_sequence_pattern`, flow_analysis.rs 3562-3607. For `Any` the
names are not assigned and have the type `Any` therefore. -/
def seqPart (ps : Parts B) (t : Ty B) : Res B :=
  match t with
  | .leaf b =>
    match w.kind b with
    | .text => ⟨[], [t], []⟩
    | .any => ⟨[t], [t], ps.caps w [.leaf w.any]⟩
    | .tuple args => tuplePart w ps args
    | .sequence item => ⟨[t], [t], ps.caps w item⟩
    | .other => ⟨[.seq (ps.item [.leaf w.object])], [t], ps.caps w [.leaf w.object]⟩
  | .seq item => ⟨[.seq (ps.item item)], [t], ps.caps w item⟩
  | t => tuplePart w ps t

/-- The end of `find_guards_in_class_pattern_part2`, flow_analysis.rs 3407-3554: the results for
the positional arguments and for the keyword arguments. -/
def classPart (t : Ty B) (pos kw : Args × List (Nat × Un B)) : Res B :=
  match pos.1 with
  | .unknown => ⟨[t], [t], pos.2⟩
  | .tooMany => ⟨[], [t], pos.2⟩
  | .mismatch => ⟨[], [t], pos.2⟩
  | .ok =>
    if kw.1 = .mismatch then ⟨[], [t], pos.2 ++ kw.2⟩ else ⟨[t], [], pos.2 ++ kw.2⟩

mutual

/-- `find_guards_in_pattern` and `find_guards_in_pattern_kind`, flow_analysis.rs 3137-3289, and
`find_guards_in_class_pattern`, 3344-3405. -/
def guards : Pat → Un B → Res B
  | .capture n, T => ⟨T, [], [(n, T)]⟩
  | .wild, T => ⟨T, [], []⟩
  | .value k, T => ⟨(w.value k T).1, (w.value k T).2, []⟩
  | .as p n, T =>
    let r := guards p T
    ⟨r.truthy, r.falsey, r.caps ++ [(n, r.truthy)]⟩
  | .or ps, T => guardsOr ps T
  | .cls c pos kw, T =>
    let r := gather ((w.isa c T).1.map fun t =>
      classPart t (guardsPos pos t (w.matchArgs t) (pos.length + kw.length)) (guardsKw kw t))
    ⟨if T.isEmpty then [] else r.truthy, (w.isa c T).2 ++ r.falsey, r.caps⟩
  | .seq before star after, T =>
    gather (T.map fun t => seqPart w
      ⟨before.length, after.length, fun Ts => guardsZip before Ts, fun Ts => guardsZip after Ts,
        fun item => guardsSeq before item, fun item => guardsSeq after item, star⟩ t)

/-- `find_guards_in_or_pattern`, flow_analysis.rs 3315-3342. -/
def guardsOr : List Pat → Un B → Res B
  | [], T => ⟨[], T, []⟩
  | p :: ps, T =>
    let r := guards p T
    let r' := guardsOr ps r.falsey
    ⟨r.truthy ++ r'.truthy, r'.falsey, r.caps ++ r'.caps⟩

/-- The positional arguments, flow_analysis.rs 3452-3512; `args` are the names for the patterns
that are left and `total` is the number of all arguments. -/
def guardsPos : List Pat → Ty B → MatchArgs → Nat → Args × List (Nat × Un B)
  | [], _, _, _ => (.ok, [])
  | p :: ps, t, args, total =>
    match args with
    | .names (n :: ns) =>
      let r := guards p ((w.attr t n).getD [.leaf w.any])
      if r.truthy.isEmpty then (.mismatch, r.caps)
      else
        let rest := guardsPos ps t (.names ns) total
        (rest.1, r.caps ++ rest.2)
    | .names [] => (.tooMany, [])
    | .unknown => (.unknown, [])
    | .missing =>
      if total = 1 ∧ w.selfMatch t then (.ok, (guards p [t]).caps)
      else
        let r := guards p [.leaf w.any]
        let rest := guardsPos ps t .missing total
        (rest.1, r.caps ++ rest.2)

/-- The keyword arguments, flow_analysis.rs 3513-3541. -/
def guardsKw : List (Nat × Pat) → Ty B → Args × List (Nat × Un B)
  | [], _ => (.ok, [])
  | (n, p) :: kw, t =>
    let r := guards p ((w.attr t n).getD [.leaf w.any])
    if r.truthy.isEmpty then (.mismatch, r.caps)
    else
      let rest := guardsKw kw t
      (rest.1, r.caps ++ rest.2)

/-- `assign_sequence_patterns`, flow_analysis.rs 3744-3776, without the starred pattern. -/
def guardsSeq : List Pat → Un B → Un B × List (Nat × Un B)
  | [], _ => ([], [])
  | p :: ps, item =>
    let r := guards p item
    let rest := guardsSeq ps item
    (r.truthy ++ rest.1, r.caps ++ rest.2)

/-- The patterns with the types of the entries, flow_analysis.rs 3829-3852. -/
def guardsZip : List Pat → List (Un B) → Zip B
  | [], _ => ⟨some [], true, []⟩
  | p :: ps, Ts =>
    match Ts with
    | [] => ⟨none, false, []⟩
    | T :: Ts =>
      let r := guards p T
      if r.truthy.isEmpty then ⟨none, false, r.caps⟩
      else
        let z := guardsZip ps Ts
        ⟨z.types.map (r.truthy :: ·), r.falsey.isEmpty && z.sure, r.caps ++ z.caps⟩

end

/-! ## The whole statement -/

/-- A guard, as far as the code uses its result: what the branch in which the guard does not hold
knows about the name (`guard_falsey.lookup_entry`), and whether it is unreachable. -/
structure Guard (B : Type) where
  falsey : Nat → Option (Un B)
  unreachable : Bool

/-- `maybe_simple_name_assignments`, parsa_python_cst/src/match_stmt.rs 70-84. -/
def simpleNames : Pat → List Nat
  | .capture n => [n]
  | .as (.capture m) n => [m, n]
  | .as _ n => [n]
  | _ => []

/-- What is left of the subject after a case, flow_analysis.rs 2801-2868. -/
def restOfCase (p : Pat) (guard : Option (Guard B)) (T : Un B) : Un B :=
  let r := guards w p T
  match guard with
  | none => r.falsey
  | some g =>
    match (simpleNames p).filterMap g.falsey |>.getLast? with
    | some U => U
    | none => if r.falsey.isEmpty ∧ g.unreachable then r.falsey else T

/-- `process_match_cases_and_return_rest`, flow_analysis.rs 2796-2888: what is left after all
cases. -/
def restOfCases : List (Pat × Option (Guard B)) → Un B → Un B
  | [], T => T
  | (p, g) :: cs, T => restOfCases cs (restOfCase w p g T)

end Verif.Pattern
