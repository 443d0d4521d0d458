import Verif.Enums.Lemmas

/-!
# Properties of enums

`reserved_partial`, `odd_differs`: exactly which names are skipped that Python does not skip.
`members_partial`: the members and the aliases are those of Python. `order_irrelevant`,
`members_in_order`: the order of the hash map does not matter. `names_partial`,
`names_are_slices`, `reused_names`: enums that are made by a call.
-/

namespace Verif.Enums

/-! ## Names -/

/-- The code skips the names that Python reserves. Missing: the names of `Odd`. -/
theorem reserved_partial {cls n : Name} (hcls : cls.head? ≠ some '_') (ho : ¬ Odd cls n) :
    skipped n = true ↔ Reserved cls n :=
  ⟨skipped_reserved hcls ho, reserved_skipped ho⟩

/-- For the names of `Odd` the code and Python differ. -/
theorem odd_differs {cls n : Name} (hcls : cls.head? ≠ some '_') (hne : cls ≠ [])
    (ho : Odd cls n) : (skipped n = true ∧ ¬ Reserved cls n) ∨
      (skipped n = false ∧ Reserved cls n) :=
  odd_disagrees hcls hne ho

/-- Names that do not begin with an underscore are never reserved. -/
theorem not_reserved {cls n : Name} (h : n.head? ≠ some '_') : ¬ Reserved cls n := by
  rintro ⟨k, hm, hk⟩
  cases hm with
  | mangle hn => subst hn; exact h rfl
  | plain =>
    rcases hk with ⟨⟨x, rfl, _⟩, _⟩ | ⟨x, rfl, _⟩ | ⟨x, rfl, _⟩ <;> exact h rfl

theorem not_odd {cls n : Name} (h : n.head? ≠ some '_') : ¬ Odd cls n := by
  rintro (rfl | ⟨⟨x, rfl⟩, _⟩ | ⟨⟨x, rfl, _⟩, _⟩) <;> exact h rfl

/-- `class E(Enum): _ = 1`: Python has the member `E._`, the checker has none. The same for names
like `_a__` and `__a___`. -/
theorem underscore_violation :
    (∀ n ∈ ["_".toList, "__".toList, "_a__".toList, "__a___".toList],
      skipped n = true ∧ ¬ Reserved "E".toList n) := by
  have hd : ∀ (n : Name), IsDunder n → n.length > 4 ∧ n[2]? ≠ some '_' ∧
      n.reverse[2]? ≠ some '_' ∧ n[1]? = some '_' := by
    rintro n ⟨x, rfl, hne, hh, hl⟩
    cases x with
    | nil => exact absurd rfl hne
    | cons c x =>
      refine ⟨by simp, by simpa using hh, ?_, by simp⟩
      rw [← List.head?_reverse] at hl
      cases hr : (c :: x).reverse with
      | nil => simp at hr
      | cons d y =>
        rw [hr] at hl
        rw [List.reverse_append, List.reverse_append, hr]
        simpa using hl
  intro n hn
  have ho : Odd "E".toList n := by
    simp only [List.mem_cons, List.not_mem_nil, or_false] at hn
    rcases hn with rfl | rfl | rfl | rfl
    · exact .inl rfl
    · exact .inr (.inl ⟨⟨['_'], rfl⟩, ⟨[], rfl⟩, fun h => absurd (hd _ h).1 (by decide)⟩)
    · exact .inr (.inl ⟨⟨_, rfl⟩, ⟨['_', 'a'], rfl⟩, fun h => absurd (hd _ h).1 (by decide)⟩)
    · exact .inr (.inl ⟨⟨_, rfl⟩, ⟨['_', '_', 'a', '_'], rfl⟩,
        fun h => absurd rfl (hd _ h).2.2.1⟩)
  have hs : skipped n = true := by
    simp only [List.mem_cons, List.not_mem_nil, or_false] at hn
    rcases hn with rfl | rfl | rfl | rfl <;> decide
  rcases odd_differs (by decide) (by decide) ho with h | h
  · exact h
  · rw [hs] at h; cases h.1

/-- `class _E(Enum): __x = 1`: the compiler makes `_E__x` of the name, which `enum` does not take
for private in the class `_E`. Python has a member, the checker has none. -/
theorem private_violation :
    skipped "__x".toList = true ∧ ¬ Reserved "_E".toList "__x".toList := by
  refine ⟨by decide, ?_⟩
  rintro ⟨k, hm, hk⟩
  cases hm with
  | plain h =>
    obtain ⟨xs, h⟩ := h ⟨['x'], rfl⟩
    have := congrArg List.getLast? h
    simp at this
  | mangle _ _ =>
    rcases hk with ⟨⟨x, h, _⟩, _⟩ | ⟨x, h, _⟩ | ⟨x, h, _⟩
    · simp at h
    · have := congrArg List.getLast? h
      rw [List.getLast?_concat] at this
      simp at this
    · simp at h

/-! ## Members -/

/-- The members are those of Python, in the same order, and the lookup of a name finds the member
that it is. Missing: the definitions that `Supported` leaves out, and Python before 3.11. -/
theorem members_partial {minor : Nat} (h11 : 11 ≤ minor) {cls : Name}
    (hcls : cls.head? ≠ some '_') {es table : List Entry} {d : Dict}
    (hrun : Runs minor (Reserved cls) (Supported minor cls) es d) (hp : table.Perm es)
    (hs : es.Pairwise fun a b => a.index < b.index) :
    MemberNames d (enumMembers minor table).members ∧
    ∀ (n : Name) (i : Nat), (enumMembers minor table).find n = some i ↔
      IsAttribute d (enumMembers minor table).members n i := by
  have inv := runs_inv h11 hcls hrun
  rw [sort_table hp hs]
  exact ⟨inv.canonical, fun n i => find_iff inv⟩

/-- The members of a class are unique: there is only one list of them. -/
theorem memberNames_unique {d : Dict} {cs cs' : List Name} (h : MemberNames d cs)
    (h' : MemberNames d cs') : cs = cs' := by
  unfold MemberNames at h h'
  generalize hn : d.memberNames = ns at h
  rw [hn] at h'
  clear hn
  induction h generalizing cs' with
  | nil =>
    generalize hm : ([] : List Name) = m at h'
    cases h' with
    | nil => rfl
    | new => simp at hm
    | alias => simp at hm
  | @new ns cs n _ hne ih =>
    generalize hm : ns ++ [n] = m at h'
    cases h' with
    | nil => simp at hm
    | new h2 hne' =>
      obtain ⟨rfl, hh⟩ := List.append_inj' hm rfl
      injection hh with hh
      subst hh
      rw [ih h2]
    | alias h2 hc he =>
      obtain ⟨rfl, hh⟩ := List.append_inj' hm rfl
      injection hh with hh
      subst hh
      have := ih h2
      subst this
      exact absurd he (hne _ hc)
  | @alias ns cs n c _ hc he ih =>
    generalize hm : ns ++ [n] = m at h'
    cases h' with
    | nil => simp at hm
    | new h2 hne' =>
      obtain ⟨rfl, hh⟩ := List.append_inj' hm rfl
      injection hh with hh
      subst hh
      have := ih h2
      subst this
      exact absurd he (hne' _ hc)
    | alias h2 =>
      obtain ⟨rfl, _⟩ := List.append_inj' hm rfl
      exact ih h2

/-- The order in which the hash map yields the names does not matter. -/
theorem order_irrelevant {minor : Nat} {table table' es : List Entry} (hp : table.Perm es)
    (hp' : table'.Perm es) (hs : es.Pairwise fun a b => a.index < b.index) :
    enumMembers minor table = enumMembers minor table' := by
  rw [sort_table hp hs, sort_table hp' hs]

/-- The members come in the order of the text. -/
theorem members_in_order {minor : Nat} {table es : List Entry} (hp : table.Perm es)
    (hs : es.Pairwise fun a b => a.index < b.index) :
    (enumMembers minor table).members.Sublist (es.map (·.name)) := by
  rw [sort_table hp hs]
  have : ∀ (l : List Entry), (collect minor l).members.Sublist (l.map (·.name)) := by
    intro l
    induction l with
    | nil => exact .slnil
    | cons e l ih =>
      simp only [collect]
      cases verdict minor e.stmt with
      | skip => exact ih.cons _
      | member => exact ih.cons_cons _
      | alias => exact ih.cons _
  exact (this _).trans (List.filter_sublist.map _)

/-! ## Enums made by a call -/

/-- The names are those into which Python splits the text. Missing: white space other than
spaces. -/
theorem names_partial {space : Char → Prop} {s : List Char} {ns : List Name}
    (h : PySplit space s ns) (hs : ∀ c ∈ s, space c ↔ c = ' ') (hn : ns.Nodup) :
    splitMembers s = (ns, []) := by
  have hspec := addMembers_spec ns [] (by simp)
  unfold splitMembers
  rw [split_python h hs 0]
  have h2 : (addMembers [] ns).2 = [] := hspec.2.2.1.mpr (by simpa using hn)
  have h1 := hspec.2.2.2 h2
  exact Prod.ext (by simpa using h1) h2

/-- Names that are used twice, for which Python raises an error, are reported, and only those. -/
theorem reused_names {space : Char → Prop} {s : List Char} {ns : List Name}
    (h : PySplit space s ns) (hs : ∀ c ∈ s, space c ↔ c = ' ') :
    ((splitMembers s).2 = [] ↔ ns.Nodup) ∧ (splitMembers s).1.Nodup ∧
    ∀ (n : Name), n ∈ (splitMembers s).1 ↔ n ∈ ns := by
  have hspec := addMembers_spec ns [] (by simp)
  unfold splitMembers
  rw [split_python h hs 0]
  exact ⟨by rw [hspec.2.2.1]; simp, hspec.1, fun n => by rw [hspec.2.1]; simp⟩

/-- Each name is saved as a part of the file: the part that begins at its offset, for texts with
all characters. -/
theorem names_are_slices {s : List Char} {k start : Nat} {n : Name}
    (h : (start, n) ∈ slices k (split s)) :
    n ≠ [] ∧ ∃ (before after : List Char), s = before ++ n ++ after ∧
      start = k + (String.ofList before).utf8ByteSize := by
  obtain ⟨h1, _, b, a, hs, hk⟩ := slices_split s.length s (Nat.le_refl _) k _ h
  have hb : ∀ (l : List Char), bytes l = (String.ofList l).utf8ByteSize := by
    intro l
    induction l with
    | nil => rfl
    | cons c l ih =>
      rw [String.ofList_cons, String.utf8ByteSize_append, String.utf8ByteSize_singleton, ← ih]
      simp [bytes]
  exact ⟨h1, b, a, hs, by rw [← hb]; exact hk⟩

/-- `Enum("E", "A\nB")`: Python makes two members, the checker makes one with a line break in its
name. -/
theorem white_space_violation :
    splitMembers "A\nB".toList = (["A\nB".toList], []) ∧
    PySplit (fun c => c = ' ' ∨ c = '\n') "A\nB".toList ["A".toList, "B".toList] := by
  refine ⟨by decide +kernel, ?_⟩
  refine .name (n := ['A']) (rest := ['\n', 'B']) (by simp) (by simp) (by simp) ?_
  refine .skip (by simp) ?_
  exact .name (n := ['B']) (rest := []) (by simp) (by simp) (by simp) .nil

/-- `Enum("E", "__a__ b")`: the checker takes `__a__` for a member, which Python does not. -/
theorem reserved_name_violation :
    splitMembers "__a__ b".toList = (["__a__".toList, "b".toList], []) ∧
    Reserved "E".toList "__a__".toList := by
  refine ⟨by decide +kernel, _, .plain fun _ => ⟨['_', '_', 'a'], rfl⟩, .inr (.inr ?_)⟩
  exact ⟨['a'], rfl, by simp, by simp, by simp⟩

/-! ## What goes wrong with members -/

/-- Nothing is assumed about the definitions. -/
abbrev Always : List Entry → Dict → Entry → Obj → Prop := fun _ _ _ _ => True

/-- A name with one letter. -/
abbrev nm (c : Char) : Name := [c]

/-- `class E(Enum): A = 1; B = A; C = B`: `E.C` is `E.A`, but the checker does not find it. -/
theorem alias_of_alias_violation :
    let es : List Entry := [⟨0, nm 'A', .assign (some .other)⟩,
      ⟨1, nm 'B', .assign (some (.ref (nm 'A') true))⟩,
      ⟨2, nm 'C', .assign (some (.ref (nm 'B') true))⟩]
    ∃ (d : Dict), Runs 14 (Reserved "E".toList) Always es d ∧ MemberNames d [nm 'A'] ∧
      IsAttribute d [nm 'A'] (nm 'C') 0 ∧ (enumMembers 14 es).find (nm 'C') = none := by
  refine ⟨⟨[(nm 'C', .value 1), (nm 'B', .value 1), (nm 'A', .value 1)],
    [nm 'A', nm 'B', nm 'C'], []⟩, ?_, ?_, ?_, by rw [sort_table (.refl _) (by simp)]; decide +kernel⟩
  · refine .step (es := [_, _]) (o := .value 1) (.step (es := [_]) (o := .value 1)
      (.step (es := []) (o := .value 1) .nil trivial (by simp) trivial
        (.member (not_reserved (by simp)) (by simp) (by simp) trivial rfl))
      rfl (by simp) trivial (.member (not_reserved (by simp)) (by simp) (by simp) trivial rfl))
      rfl (by simp) trivial (.member (not_reserved (by simp)) (by simp) (by simp) trivial rfl)
  · exact .alias (ns := [_, _]) (c := nm 'A') (.alias (ns := [_]) (c := nm 'A')
      (.new (ns := []) (cs := []) .nil (by simp)) (by simp) rfl) (by simp) rfl
  · exact ⟨by simp, nm 'A', rfl, rfl⟩

/-- `class E(Enum): A = 1; B = 1`: `E.B` is `E.A`, but the checker takes them for two members. -/
theorem equal_values_violation :
    let es : List Entry := [⟨0, nm 'A', .assign (some .other)⟩, ⟨1, nm 'B', .assign (some .other)⟩]
    ∃ (d : Dict), Runs 14 (Reserved "E".toList) Always es d ∧ MemberNames d [nm 'A'] ∧
      IsAttribute d [nm 'A'] (nm 'B') 0 ∧ (enumMembers 14 es).members = [nm 'A', nm 'B'] ∧
      (enumMembers 14 es).find (nm 'B') = some 1 := by
  refine ⟨⟨[(nm 'B', .value 1), (nm 'A', .value 1)], [nm 'A', nm 'B'], []⟩, ?_, ?_, ?_,
    by rw [sort_table (.refl _) (by simp)]; decide +kernel, by rw [sort_table (.refl _) (by simp)]; decide +kernel⟩
  · refine .step (es := [_]) (o := .value 1) (.step (es := []) (o := .value 1) .nil trivial (by simp)
      trivial (.member (not_reserved (by simp)) (by simp) (by simp) trivial rfl))
      trivial (by simp) trivial (.member (not_reserved (by simp)) (by simp) (by simp) trivial rfl)
  · exact .alias (ns := [_]) (c := nm 'A') (.new (ns := []) (cs := []) .nil (by simp)) (by simp) rfl
  · exact ⟨by simp, nm 'A', rfl, rfl⟩

/-- `class E(Enum): class N: ...`: since Python 3.13 `E.N` is the class, but the checker takes it
for a member. -/
theorem nested_class_violation :
    let es : List Entry := [⟨0, nm 'N', .cls []⟩]
    ∃ (d : Dict), Runs 13 (Reserved "E".toList) Always es d ∧ MemberNames d [] ∧
      (enumMembers 13 es).members = [nm 'N'] := by
  refine ⟨⟨[(nm 'N', .cls 0)], [], []⟩, ?_, .nil, by rw [sort_table (.refl _) (by simp)]; decide +kernel⟩
  exact .step (es := []) (o := .cls 0) .nil ⟨0, .nil⟩ (by simp) trivial
    (.other (not_reserved (by simp)) (by simp) (by simp) (by simp) (Nat.lt_irrefl 13))

/-- `def g(): ...` and `class E(Enum): F = g`: `E.F` is the function, but the checker takes it for
a member. -/
theorem function_value_violation :
    let es : List Entry := [⟨0, nm 'F', .assign (some (.ref (nm 'g') false))⟩]
    ∃ (d : Dict), Runs 14 (Reserved "E".toList) Always es d ∧ MemberNames d [] ∧
      (enumMembers 14 es).members = [nm 'F'] := by
  refine ⟨⟨[(nm 'F', .descriptor 0)], [], []⟩, ?_, .nil, by rw [sort_table (.refl _) (by simp)]; decide +kernel⟩
  exact .step (es := []) (o := .descriptor 0) .nil rfl (by simp) trivial
    (.other (not_reserved (by simp)) (by simp) (by simp) (by simp) fun h => h)

/-- `class E(Enum): X = nonmember(3); Y = X`: `E.Y` is a member, but the checker takes it for an
alias of something that is not a member and does not find it. -/
theorem value_of_nonmember_violation :
    let es : List Entry := [⟨0, nm 'X', .assign (some (.call .nonmember))⟩,
      ⟨1, nm 'Y', .assign (some (.ref (nm 'X') true))⟩]
    ∃ (d : Dict), Runs 14 (Reserved "E".toList) Always es d ∧ MemberNames d [nm 'Y'] ∧
      (enumMembers 14 es).members = [] ∧ (enumMembers 14 es).find (nm 'Y') = none := by
  refine ⟨⟨[(nm 'Y', .value 3), (nm 'X', .value 3)], [nm 'Y'], []⟩, ?_, ?_,
    by rw [sort_table (.refl _) (by simp)]; decide +kernel, by rw [sort_table (.refl _) (by simp)]; decide +kernel⟩
  · exact .step (es := [_]) (o := .value 3) (.step (es := []) (o := .nonmember (.value 3)) .nil
      ⟨_, rfl⟩ (by simp) trivial (.nonmember (not_reserved (by simp)) (by simp) (by simp)))
      rfl (by simp) trivial (.member (not_reserved (by simp)) (by simp) (by simp) trivial rfl)
  · exact .new (ns := []) (cs := []) .nil (by simp)

/-- `class E(Enum): @member def F(self): ...; G = F`: `E.G` is a function, but the checker takes it
for an alias of the member `E.F`. -/
theorem alias_of_function_violation :
    let es : List Entry := [⟨0, nm 'F', .func [.member]⟩,
      ⟨1, nm 'G', .assign (some (.ref (nm 'F') true))⟩]
    ∃ (d : Dict), Runs 14 (Reserved "E".toList) Always es d ∧ MemberNames d [nm 'F'] ∧
      (∀ (i : Nat), ¬ IsAttribute d [nm 'F'] (nm 'G') i) ∧
      (enumMembers 14 es).find (nm 'G') = some 0 := by
  refine ⟨⟨[(nm 'G', .descriptor 0), (nm 'F', .descriptor 0)], [nm 'F'], []⟩, ?_, ?_, ?_,
    by rw [sort_table (.refl _) (by simp)]; decide +kernel⟩
  · exact .step (es := [_]) (o := .descriptor 0) (.step (es := []) (o := .member (.descriptor 0)) .nil
      ⟨0, .cons .nil rfl⟩ (by simp) trivial
      (.member (not_reserved (by simp)) (by simp) (by simp) trivial rfl))
      rfl (by simp) trivial
      (.other (not_reserved (by simp)) (by simp) (by simp) (by simp) fun h => h)
  · exact .new (ns := []) (cs := []) .nil (by simp)
  · rintro i ⟨h, _⟩
    simp at h

/-- `class E(Enum): _ignore_ = ["X"]; X = 1`: `X` is removed from the class, but the checker takes
it for a member. -/
theorem ignore_violation :
    let es : List Entry := [⟨0, "_ignore_".toList, .assign (some .other)⟩,
      ⟨1, nm 'X', .assign (some .other)⟩]
    ∃ (d : Dict), Runs 14 (Reserved "E".toList) Always es d ∧ MemberNames d [] ∧
      (enumMembers 14 es).members = [nm 'X'] := by
  refine ⟨⟨[(nm 'X', .value 1), ("_ignore_".toList, .names [nm 'X'])], [], [nm 'X']⟩, ?_, .nil,
    by rw [sort_table (.refl _) (by simp)]; decide +kernel⟩
  exact .step (es := [_]) (o := .value 1) (.step (es := []) (o := .names [nm 'X']) .nil
    trivial (by simp) trivial (.ignore (by simp)))
    trivial (by simp) trivial (.ignored (not_reserved (by simp)) (by simp) (by simp))

/-- `class E(Enum): F = staticmethod(g)` for Python 3.10: `E.F` is the function, but the checker
takes it for a member. -/
theorem static_method_violation :
    let es : List Entry := [⟨0, nm 'F', .assign (some (.call .staticMethod))⟩]
    ∃ (d : Dict), Runs 10 (Reserved "E".toList) Always es d ∧ MemberNames d [] ∧
      (enumMembers 10 es).members = [nm 'F'] := by
  refine ⟨⟨[(nm 'F', .descriptor 0)], [], []⟩, ?_, .nil, by rw [sort_table (.refl _) (by simp)]; decide +kernel⟩
  exact .step (es := []) (o := .descriptor 0) .nil ⟨0, rfl⟩ (by simp) trivial
    (.other (not_reserved (by simp)) (by simp) (by simp) (by simp) fun h => h)

/-! ## The hypotheses can be met -/

/-- `class E(Enum): A = 1; B = A; def f(self): ...` -/
example : ∃ (d : Dict), Runs 14 (Reserved "E".toList) (Supported 14 "E".toList)
    [⟨0, nm 'A', .assign (some .other)⟩, ⟨1, nm 'B', .assign (some (.ref (nm 'A') true))⟩,
      ⟨2, nm 'f', .func []⟩] d ∧ d.memberNames = [nm 'A', nm 'B'] := by
  refine ⟨⟨[(nm 'f', .descriptor 0), (nm 'B', .value 1), (nm 'A', .value 1)],
    [nm 'A', nm 'B'], []⟩, ?_, rfl⟩
  refine .step (es := [_, _]) (o := .descriptor 0) (.step (es := [_]) (o := .value 1)
    (.step (es := []) (o := .value 1) .nil trivial (by simp) ?_
      (.member (not_reserved (by simp)) (by simp) (by simp) trivial rfl))
    rfl (by simp) ?_ (.member (not_reserved (by simp)) (by simp) (by simp) trivial rfl))
    ⟨0, .nil⟩ (by simp) ?_ (.other (not_reserved (by simp)) (by simp) (by simp) (by simp) fun h => h)
  · exact ⟨not_odd (by simp), by decide, fun _ => trivial, fun h => by simp at h, fun n h => by simp at h,
      fun _ m hm => nomatch hm⟩
  · refine ⟨not_odd (by simp), by decide, fun h => by simp at h, fun h => by simp at h, ?_, ?_⟩
    · intro n h
      simp at h
      subst h
      exact .inr ⟨by simp, ⟨_, List.mem_singleton_self _, rfl, by rintro ⟨n, h⟩; simp at h⟩, trivial,
        by simp⟩
    · exact fun h => absurd ⟨_, rfl⟩ h
  · refine ⟨not_odd (by simp), by decide, fun h => by simp at h, fun h => by simp at h, ?_, ?_⟩
    · intro n h; simp at h
    · intro _ m hm
      simp at hm
      rcases hm with rfl | rfl <;> decide

example : PySplit (fun c => c = ' ') "a, b".toList ["a".toList, "b".toList] := by
  refine .name (n := ['a']) (rest := [',', ' ', 'b']) (by simp) (by simp) (by simp) ?_
  refine .skip (by simp) (.skip (by simp) ?_)
  exact .name (n := ['b']) (rest := []) (by simp) (by simp) (by simp) .nil

example : splitMembers "a, b".toList = (["a".toList, "b".toList], []) ∧
    slices 10 (split "a, b".toList) = [(10, "a".toList), (13, "b".toList)] := by decide +kernel

example : ¬ Odd "E".toList "__x".toList ∧ skipped "__x".toList = true := by
  refine ⟨?_, by decide⟩
  rintro (h | ⟨_, ⟨xs, h⟩, _⟩ | ⟨⟨x, h, _⟩, _⟩)
  · simp at h
  · have := congrArg List.getLast? h
    simp at this
  · simp at h

end Verif.Enums
