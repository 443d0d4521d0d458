import Verif.Mapping.Lemmas

/-!
# Mapping patterns (theorems)
-/

namespace Verif.Mapping

open Verif.Pattern

variable {B V : Type} {r : Run B V} {w : World B}

/-! ## C155: the subject in the body of a case with a mapping pattern -/

/-- If a value of the type of the subject matches a mapping pattern, then it has the type that the
subject has in the body of the case.

Missing: keys that are dotted names and may be strings, but have a type that is not `str`. -/
theorem then_partial (hs : Sound r w) {es : List (Key × MPat)} {rest : Option Nat} {T : Un B} {v : V}
    {σ : Binds V} (hk : ∀ e ∈ es, KeyOk r w e.1) (hv : Has r.base T v)
    (hm : Matches r (.map es rest) v σ) : Has r.base (guards w (.map es rest) T).truthy v := by
  obtain ⟨t, ht, htv⟩ := has_iff.mp hv
  simp only [Matches] at hm
  obtain ⟨m, σ1, σ2, hmv, hes, _, _⟩ := hm
  simp only [guards]
  refine has_iff.mpr ⟨t, (mem_gather ht).1 t ?_, htv⟩
  cases hkt : w.kind t with
  | any => simp
  | other value key => simp
  | dict d =>
    obtain ⟨m0, hm0, hd⟩ := hs.dict t d v hkt htv
    rw [hmv] at hm0
    obtain rfl := Option.some.inj hm0
    obtain ⟨sure, hsure⟩ := dictEntries_there hs hd es σ1 hk hes
    simp [dictPart, hsure]

/-- A mapping pattern for which the subject is `Never` in the body of its case matches no value of
the type of the subject.

Missing: see `then_partial`. -/
theorem never_matches_partial (hs : Sound r w) {es : List (Key × MPat)} {rest : Option Nat}
    {T : Un B} {v : V} (hk : ∀ e ∈ es, KeyOk r w e.1) (hv : Has r.base T v)
    (hn : (guards w (.map es rest) T).truthy = []) : Fails r (.map es rest) v := by
  intro σ hm
  have := then_partial hs hk hv hm
  rw [hn] at this
  exact this

/-- Neither in the body of a case with a mapping pattern nor after it has the subject members of the
union that it did not have before. -/
theorem inside {es : List (Key × MPat)} {rest : Option Nat} {T : Un B} {u : Ty B} :
    (u ∈ (guards w (.map es rest) T).truthy → u ∈ T) ∧
    (u ∈ (guards w (.map es rest) T).falsey → u ∈ T) := by
  have part : ∀ (t : Ty B) (d : Dict B) (x : Option Bool × List (Nat × Un B)),
      (u ∈ (dictPart w t d rest x).truthy → u = t) ∧
      (u ∈ (dictPart w t d rest x).falsey → u = t) := by
    intro t d x
    unfold dictPart
    split
    · simp
    · dsimp only
      split <;> simp
  simp only [guards, gather, List.flatMap_map, List.mem_flatMap]
  constructor
  · rintro ⟨t, ht, hu⟩
    have : u = t := by
      cases hk : w.kind t with
      | any => simpa [hk] using hu
      | other value key => simpa [hk] using hu
      | dict d => rw [hk] at hu; exact (part t d _).1 hu
    exact this ▸ ht
  · rintro ⟨t, ht, hu⟩
    have : u = t := by
      cases hk : w.kind t with
      | any => simpa [hk] using hu
      | other value key => simpa [hk] using hu
      | dict d => rw [hk] at hu; exact (part t d _).2 hu
    exact this ▸ ht

/-- Typed dicts that cannot have a key of the pattern, because they are closed and have no such
member or because the key is no string, are excluded in the body of the case. -/
theorem impossible_key {es : List (Key × MPat)} {rest : Option Nat} {T : Un B} {k : Key} {p : MPat}
    (hmem : (k, p) ∈ es)
    (hT : ∀ t ∈ T, ∃ (d : Dict B), w.kind t = .dict d ∧
      ((∃ (n : Nat), k = .number n) ∨
        ∃ (s : Nat), k = .text s ∧ d.extra = some [] ∧ ∀ f ∈ d.members, f.name ≠ s)) :
    (guards w (.map es rest) T).truthy = [] ∧ (guards w (.map es rest) T).falsey = T := by
  have key : ∀ (d : Dict B), d.entry w k = none → ∀ (es : List (Key × MPat)), (k, p) ∈ es →
      (dictEntries w es d).1 = none := by
    intro d hd es
    induction es with
    | nil => intro h; cases h
    | cons e es ih =>
      obtain ⟨k', p'⟩ := e
      intro h
      simp only [dictEntries]
      cases he : d.entry w k' with
      | none => rfl
      | some Ts =>
        rcases List.mem_cons.mp h with h | h
        · cases h
          rw [hd] at he
          cases he
        · simp [ih h]
  have one : ∀ t ∈ T, ∃ (d : Dict B), w.kind t = .dict d ∧ (dictEntries w es d).1 = none := by
    intro t ht
    obtain ⟨d, hk, h⟩ := hT t ht
    refine ⟨d, hk, key d ?_ es hmem⟩
    rcases h with ⟨n, rfl⟩ | ⟨s, rfl, he, hn⟩
    · rfl
    · have hf : d.find s = none := by
        unfold Dict.find
        rw [List.find?_eq_none]
        intro f hf
        simpa using hn f hf
      simp [Dict.entry, Dict.literal, hf, Dict.closed, he]
  simp only [guards, gather, List.flatMap_map]
  constructor
  · rw [List.flatMap_eq_nil_iff]
    intro t ht
    obtain ⟨d, hk, hd⟩ := one t ht
    simp [hk, dictPart, hd]
  · apply flatMap_self
    intro t ht
    obtain ⟨d, hk, hd⟩ := one t ht
    simp [hk, dictPart, hd]

/-! ## C156: what a case with a mapping pattern leaves -/

/-- If a value of the type of the subject does not match a mapping pattern, then it has the type
that the subject has after the case.

Missing: class patterns with arguments that can fail, and starred patterns, in the values. -/
theorem else_partial (hs : Sound r w) {p : MPat} {T : Un B} {v : V}
    (ha : Plain (ArgsTotal r.base) p) (hst : Plain Starless p) (hv : Has r.base T v)
    (hf : Fails r p v) : Has r.base (guards w p T).falsey v :=
  else_map hs p ha hst T v hv hf

/-- If nothing is left after a mapping pattern, then all values of the type of the subject match.

Missing: see `else_partial`. -/
theorem exhaustive_partial (hs : Sound r w) {p : MPat} {T : Un B} {v : V}
    (ha : Plain (ArgsTotal r.base) p) (hst : Plain Starless p) (hv : Has r.base T v)
    (hn : (guards w p T).falsey = []) : ∃ (σ : Binds V), Matches r p v σ := by
  by_cases h : ∃ (σ : Binds V), Matches r p v σ
  · exact h
  · have := else_partial hs ha hst hv (fun σ hσ => h ⟨σ, hσ⟩)
    rw [hn] at this
    exact this.elim

/-- Typed dicts in which all keys of the pattern are required are gone after the case, if the
patterns of the values match everything: `match` statements over typed dicts can be exhaustive. -/
theorem required_rest (hm : w.mypy = false) (hv : ∀ (k : Nat), (w.base.value k []).2 = [])
    (hi : ∀ (c : Nat), w.base.isa c [] = ([], [])) {es : List (Key × MPat)} {rest : Option Nat}
    {T : Un B}
    (hes : ∀ e ∈ es, ∃ (s : Nat) (p : Pat), e = (.text s, .plain p) ∧ Total p)
    (hT : ∀ t ∈ T, ∃ (d : Dict B), w.kind t = .dict d ∧ ∀ (s : Nat) (p : MPat),
      (.text s, p) ∈ es → (∃ f ∈ d.members, f.name = s) ∧
        ∀ f ∈ d.members, f.name = s → f.required = true) :
    (guards w (.map es rest) T).falsey = [] ∧ (guards w (.map es rest) T).truthy = T := by
  have key : ∀ (d : Dict B) (es : List (Key × MPat)),
      (∀ e ∈ es, ∃ (s : Nat) (p : Pat), e = (.text s, .plain p) ∧ Total p) →
      (∀ (s : Nat) (p : MPat), (.text s, p) ∈ es → (∃ f ∈ d.members, f.name = s) ∧
        ∀ f ∈ d.members, f.name = s → f.required = true) →
      (dictEntries w es d).1 = some true := by
    intro d es
    induction es with
    | nil => intros; rfl
    | cons e es ih =>
      intro h1 h2
      obtain ⟨s, p, rfl, hp⟩ := h1 _ List.mem_cons_self
      obtain ⟨⟨f, hf, hfs⟩, hreq⟩ := h2 s _ List.mem_cons_self
      have hfind : ∃ (g : Member B), d.find s = some g ∧ g.required = true := by
        cases hg : d.find s with
        | none => exact absurd hfs (find_none hg f hf)
        | some g =>
          obtain ⟨hmem, hname⟩ := find_some hg
          exact ⟨g, rfl, hreq g hmem hname⟩
      obtain ⟨g, hg, hgr⟩ := hfind
      have ih' := ih (fun e he => h1 e (List.mem_cons_of_mem _ he))
        (fun s p he => h2 s p (List.mem_cons_of_mem _ he))
      simp only [dictEntries, Dict.entry, Dict.literal, hg, guards, hgr, ih',
        total_rest hv hi hp g.type]
      rfl
  have one : ∀ t ∈ T, ∃ (d : Dict B), w.kind t = .dict d ∧ (dictEntries w es d).1 = some true := by
    intro t ht
    obtain ⟨d, hk, h⟩ := hT t ht
    exact ⟨d, hk, key d es hes h⟩
  simp only [guards, gather, List.flatMap_map]
  constructor
  · rw [List.flatMap_eq_nil_iff]
    intro t ht
    obtain ⟨d, hk, hd⟩ := one t ht
    simp [hk, dictPart, hd, hm]
  · apply flatMap_self
    intro t ht
    obtain ⟨d, hk, hd⟩ := one t ht
    simp [hk, dictPart, hd]

/-- With Mypy's settings a mapping pattern changes nothing for the cases after it, and neither does
it for subjects that are not typed dicts. -/
theorem unchanged_rest {es : List (Key × MPat)} {rest : Option Nat} {T : Un B}
    (h : w.mypy = true ∨ ∀ t ∈ T, ∀ (d : Dict B), w.kind t ≠ .dict d) :
    (guards w (.map es rest) T).falsey = T := by
  simp only [guards, gather, List.flatMap_map]
  apply flatMap_self
  intro t ht
  cases hk : w.kind t with
  | any => rfl
  | other value key => rfl
  | dict d =>
    rcases h with h | h
    · simp only [dictPart, h]
      split <;> simp
    · exact absurd hk (h t ht d)

/-! ## C157: the names of a mapping pattern -/

/-- If a value of the type of the subject matches a mapping pattern, then each name that Python
binds, also the one of `**rest`, has a value of the type that the checker infers for the name.

Missing: see `then_partial` and `Verif.Pattern.names_partial`; starred patterns in the values;
`**rest` if the return type of `__getitem__` depends on the key. -/
theorem names_partial (hs : Sound r w) (hsame : SameArgs r.base w.base) (hk : ArgsKnown w.base)
    {p : MPat} {T : Un B} {v : V} {σ : Binds V} (ho : Plain (OrsTotal r.base) p)
    (hst : Plain Starless p) (hkeys : KeysOk r w p) (hrest : Restless p ∨ Uniform r w)
    (hv : Has r.base T v) (hm : Matches r p v σ) : Bound r.base σ (guards w p T).caps :=
  names_map hs hsame hk p ho hst hkeys hrest T v σ hv hm

/-- A name for the value of a key of a typed dict has exactly the type of the member, whatever the
other entries are, if these are members too. -/
theorem member_type {es : List (Key × MPat)} {rest : Option Nat} {t : Ty B} {d : Dict B} {n s : Nat}
    (hk : w.kind t = .dict d)
    (hes : ∀ e ∈ es, ∃ (s : Nat), e.1 = .text s ∧ ∃ f ∈ d.members, f.name = s)
    (hmem : (.text s, .plain (.capture n)) ∈ es) {f : Member B} (hf : f ∈ d.members)
    (hname : f.name = s) (huniq : ∀ g ∈ d.members, g.name = s → g = f) :
    (n, f.type) ∈ (guards w (.map es rest) [t]).caps := by
  have hfind : d.find s = some f := by
    cases hg : d.find s with
    | none => exact absurd hname (find_none hg f hf)
    | some g =>
      obtain ⟨hmem, hname⟩ := find_some hg
      rw [huniq g hmem hname]
  have key : ∀ (es : List (Key × MPat)),
      (∀ e ∈ es, ∃ (s : Nat), e.1 = .text s ∧ ∃ f ∈ d.members, f.name = s) →
      (∃ (b : Bool), (dictEntries w es d).1 = some b) ∧
      ((.text s, .plain (.capture n)) ∈ es → (n, f.type) ∈ (dictEntries w es d).2) := by
    intro es
    induction es with
    | nil => intro _; exact ⟨⟨true, rfl⟩, fun h => by cases h⟩
    | cons e es ih =>
      intro h
      obtain ⟨k, p⟩ := e
      obtain ⟨s', hs', g, hg, hgs⟩ := h _ List.mem_cons_self
      dsimp only at hs'
      subst hs'
      obtain ⟨⟨b, hb⟩, ih⟩ := ih (fun e he => h e (List.mem_cons_of_mem _ he))
      have : ∃ (g' : Member B), d.find s' = some g' := by
        cases hg' : d.find s' with
        | none => exact absurd hgs (find_none hg' g hg)
        | some g' => exact ⟨g', rfl⟩
      obtain ⟨g', hg'⟩ := this
      simp only [dictEntries, Dict.entry, Dict.literal, hg', hb]
      refine ⟨⟨_, rfl⟩, fun hm => ?_⟩
      rcases List.mem_cons.mp hm with hm | hm
      · injection hm with h1 h2
        injection h1 with h1
        subst h1 h2
        rw [hfind] at hg'
        injection hg' with hg'
        subst hg'
        simp [guards, Pattern.guards]
      · exact List.mem_append_right _ (ih hm)
  obtain ⟨⟨b, hb⟩, hc⟩ := key es hes
  simp [guards, gather, hk, dictPart, hb, hc hmem]

/-! ## A concrete program, and where the code is wrong -/

namespace Sample

inductive Atom where
  | str (s : Nat)
  | int (n : Nat)
  deriving DecidableEq

inductive Val where
  | atom (a : Atom)
  | dict (f : Atom → Option Atom)

/-- `td` is `{"0": int, "1": NotRequired[str]}`, `config` is a class with overloads of
`__getitem__`: `int` for the key `"0"` and `str` for other keys. -/
inductive Base where
  | any | object | int | str | td | config | dictInt | dict
  deriving DecidableEq

def Val.mapping : Val → Option (Val → Option Val)
  | .dict f => some fun k =>
    match k with
    | .atom a => (f a).map .atom
    | _ => none
  | _ => none

def isInt : Val → Prop
  | .atom (.int _) => True
  | _ => False

def isStr : Val → Prop
  | .atom (.str _) => True
  | _ => False

def isTd : Val → Prop
  | .dict f => (∀ (k : Atom), f k ≠ none → ∃ (s : Nat), k = .str s) ∧ (∃ (n : Nat), f (.str 0) = some (.int n)) ∧
      ∀ (x : Atom), f (.str 1) = some x → ∃ (s : Nat), x = .str s
  | _ => False

def isConfig : Val → Prop
  | .dict f => (∀ (k : Atom), f k ≠ none → ∃ (s : Nat), k = .str s) ∧
      (∀ (x : Atom), f (.str 0) = some x → ∃ (n : Nat), x = .int n) ∧
      ∀ (s : Nat) (x : Atom), s ≠ 0 → f (.str s) = some x → ∃ (s : Nat), x = .str s
  | _ => False

/-- All values are numbers. -/
def isDictInt : Val → Prop
  | .dict f => ∀ (k x : Atom), f k = some x → ∃ (n : Nat), x = .int n
  | _ => False

/-- The names `2` and `3` stand for `"0"`. -/
def dottedVal (k : Nat) : Val := if k = 1 then .atom (.str 1) else .atom (.str 0)

def run : Run Base Val where
  base :=
    { leafHas := fun b v =>
        match b with
        | .any => True
        | .object => True
        | .int => isInt v
        | .str => isStr v
        | .td => isTd v
        | .config => isConfig v
        | .dictInt => isDictInt v
        | .dict => True
      items := fun _ => none
      text := isStr
      isTuple := fun _ => False
      newList := fun _ _ => True
      equals := fun k v => v = .atom (.int k)
      inst := fun _ v => isInt v
      attr := fun _ _ => none
      matchArgs := fun _ => none
      selfMatch := fun _ => True }
  mapping := Val.mapping
  text s := .atom (.str s)
  number n := .atom (.int n)
  dotted := dottedVal
  isStr := isStr
  newDict m v := ∃ (f : Atom → Option Atom), v = .dict f ∧
    ∀ (k x : Atom), f k = some x → m (.atom k) = some (.atom x)

def td : Dict Base where
  members := [⟨0, [.leaf .int], true⟩, ⟨1, [.leaf .str], false⟩]
  extra := none

/-- `__getitem__` of `config`. -/
def configValue (ks : List Key) : Option (Un Base) :=
  if ks.all (· == .text 0) then some [.leaf .int] else some [.leaf .int, .leaf .str]

/-- The dotted names: `Literal["0"]`, `str`, `Any` and `str | int`. -/
def dottedTy : Nat → List KeyTy
  | 0 => [.literal 0]
  | 1 => [.str]
  | 2 => [.other]
  | _ => [.str, .other]

def world : World Base where
  base :=
    { value := fun _ T => (T, T)
      isa := fun _ T => (T, T.filter fun t =>
        match t with
        | .leaf .int => false
        | _ => true)
      kind := fun _ => .other
      any := .any
      object := .object
      listOf := fun _ => .object
      attr := fun _ _ => none
      matchArgs := fun _ => .missing
      selfMatch := fun _ => true }
  kind
    | .leaf .td => .dict td
    | .leaf .any => .any
    | .leaf .config => .other configValue (some [.leaf .str])
    | _ => .other (fun _ => none) none
  dotted := dottedTy
  str := .str
  dictOf _ T :=
    match T with
    | [.leaf .int] => .dictInt
    | _ => .dict
  mypy := false

theorem dict_val {t : Ty Base} {d : Dict Base} (h : world.kind t = .dict d) : t = .leaf .td ∧ d = td := by
  simp only [world] at h
  split at h
  · injection h with h
    exact ⟨rfl, h.symm⟩
  · cases h
  · cases h
  · cases h

theorem td_has {f : Atom → Option Atom} (h : isTd (.dict f)) {m : Val → Option Val}
    (hm : Val.mapping (.dict f) = some m) : DictHas run td m := by
  simp only [Val.mapping, Option.some.injEq] at hm
  subst hm
  obtain ⟨h1, ⟨n, h2⟩, h3⟩ := h
  refine ⟨?_, ?_, ?_, ?_⟩
  · intro k x hx
    cases k with
    | dict g => cases hx
    | atom a =>
      obtain ⟨s, rfl⟩ := h1 a (by rintro e; simp [e] at hx)
      trivial
  · intro g hg hreq
    simp only [td, List.mem_cons, List.not_mem_nil, or_false] at hg
    rcases hg with rfl | rfl
    · exact ⟨.atom (.int n), by simp [run, h2]⟩
    · cases hreq
  · intro g hg x hx
    simp only [td, List.mem_cons, List.not_mem_nil, or_false] at hg
    rcases hg with rfl | rfl
    · simp only [run, h2, Option.map_some, Option.some.injEq] at hx
      subst hx
      exact has_single.mpr trivial
    · simp only [run, Option.map_eq_some_iff] at hx
      obtain ⟨a, ha, rfl⟩ := hx
      obtain ⟨s, rfl⟩ := h3 a ha
      exact has_single.mpr trivial
  · intro T hT
    cases hT

theorem sound : Sound run world where
  base :=
    { value := fun k T v hv => ⟨fun _ => hv, fun _ => hv⟩
      isa := by
        intro c T v hv
        refine ⟨fun _ => hv, fun hn => ?_⟩
        obtain ⟨t, ht, htv⟩ := has_iff.mp hv
        refine has_iff.mpr ⟨t, List.mem_filter.mpr ⟨ht, ?_⟩, htv⟩
        split
        · exact absurd htv hn
        · rfl
      any := fun _ => trivial
      object := fun _ => trivial
      listOf := fun _ _ _ _ _ => trivial
      fresh := fun _ => ⟨.atom (.int 0), trivial⟩
      attr := fun _ _ _ _ _ _ h => nomatch h
      text := fun _ _ h => nomatch h
      tuple := fun _ _ _ h => nomatch h
      sequence := fun _ _ _ h => nomatch h
      noText := fun _ h => h.elim
      tupleArgs := fun _ _ h => nomatch h }
  str _ h := h
  text _ := trivial
  textInj s s' h := by
    simp only [run, Val.atom.injEq, Atom.str.injEq] at h
    exact h
  number _ h := h
  dotted k := by
    match k with
    | 0 => exact ⟨.literal 0, by simp [world, dottedTy], rfl⟩
    | 1 => exact ⟨.str, by simp [world, dottedTy], trivial⟩
    | 2 => exact ⟨.other, by simp [world, dottedTy], trivial⟩
    | k + 3 => exact ⟨.other, by simp [world, dottedTy], trivial⟩
  dict := by
    intro t d v h hv
    obtain ⟨rfl, rfl⟩ := dict_val h
    cases v with
    | atom a => exact hv.elim
    | dict f => exact ⟨_, rfl, td_has hv rfl⟩
  other := by
    intro t value key v m h hv hm
    simp only [world] at h
    split at h
    · cases h
    · cases h
    · injection h with h1 h2
      subst h1 h2
      cases v with
      | atom a => cases hm
      | dict f =>
        obtain ⟨h1, h2, h3⟩ : isConfig (.dict f) := hv
        simp only [run, Val.mapping, Option.some.injEq] at hm
        subst hm
        constructor
        · intro ks T hT k hk x hx
          have hsplit : (k = .text 0 → ∃ (n : Nat), x = .atom (.int n)) ∧
              ((∃ (n : Nat), x = .atom (.int n)) ∨ ∃ (s : Nat), x = .atom (.str s)) := by
            have key : ∀ (a : Atom), (f a).map Val.atom = some x →
                (a = .str 0 → ∃ (n : Nat), x = .atom (.int n)) ∧
                ((∃ (n : Nat), x = .atom (.int n)) ∨ ∃ (s : Nat), x = .atom (.str s)) := by
              intro a ha
              obtain ⟨y, hy, rfl⟩ := Option.map_eq_some_iff.mp ha
              obtain ⟨s, rfl⟩ := h1 a (by rw [hy]; simp)
              by_cases hs : s = 0
              · subst hs
                obtain ⟨n, rfl⟩ := h2 y hy
                exact ⟨fun _ => ⟨n, rfl⟩, .inl ⟨n, rfl⟩⟩
              · obtain ⟨s', rfl⟩ := h3 s y hs hy
                exact ⟨fun e => by injection e with e; exact absurd e hs, .inr ⟨s', rfl⟩⟩
            cases k with
            | text s =>
              refine ⟨fun e => (key (.str s) hx).1 (by injection e with e; rw [e]),
                (key (.str s) hx).2⟩
            | number n => exact ⟨fun e => (nomatch e), (key (.int n) hx).2⟩
            | dotted n =>
              have : ∃ (a : Atom), Key.val run (.dotted n) = .atom a := by
                simp only [Key.val, run, dottedVal]
                split
                · exact ⟨_, rfl⟩
                · exact ⟨_, rfl⟩
              obtain ⟨a, ha⟩ := this
              rw [ha] at hx
              exact ⟨fun e => (nomatch e), (key a hx).2⟩
          simp only [configValue] at hT
          split at hT
          · rename_i hall
            injection hT with hT
            subst hT
            have := List.all_eq_true.mp hall k hk
            obtain ⟨n, rfl⟩ := hsplit.1 (by simpa using this)
            exact has_single.mpr trivial
          · injection hT with hT
            subst hT
            rcases hsplit.2 with ⟨n, rfl⟩ | ⟨s, rfl⟩
            · exact .inl trivial
            · exact .inr (.inl trivial)
        · intro K hK k x hx
          injection hK with hK
          subst hK
          cases k with
          | dict g => cases hx
          | atom a =>
            obtain ⟨s, rfl⟩ := h1 a (by rintro e; simp [e] at hx)
            exact has_single.mpr trivial
    · injection h with h1 h2
      subst h1 h2
      exact ⟨(fun _ _ h => nomatch h), (fun _ h => nomatch h)⟩
  dictOf := by
    intro K T m d hd h
    obtain ⟨f, rfl, hf⟩ := hd
    simp only [world]
    split
    · intro k x hx
      have := (h _ _ (hf k x hx)).2
      have hi : isInt (.atom x) := has_single.mp this
      cases x with
      | str s => exact hi.elim
      | int n => exact ⟨n, rfl⟩
    · trivial
  fresh m := by
    refine ⟨.dict fun k =>
      match m (.atom k) with
      | some (.atom x) => some x
      | _ => none, _, rfl, ?_⟩
    intro k x hx
    split at hx
    · rename_i y hy
      rw [hy, Option.some.inj hx]
    · cases hx

/-- `{"0": 5}` -/
def five : Val := .dict fun k => if k = .str 0 then some (.int 5) else none

theorem five_td : Has run.base [.leaf .td] five := by
  refine has_single.mpr ⟨?_, ⟨5, rfl⟩, ?_⟩
  · intro k hk
    by_cases h : k = .str 0
    · exact ⟨0, h⟩
    · simp [h] at hk
  · intro x hx
    simp at hx

/-- `case {"0": n}` -/
def pattern : MPat := .map [(.text 0, .plain (.capture 0))] none

theorem five_matches : Matches run pattern five [(0, .atom (.int 5))] := by
  simp only [pattern, Matches, MatchesEntries, Pattern.Matches]
  exact ⟨_, [(0, .atom (.int 5))], [], rfl, ⟨.atom (.int 5), _, _, rfl, rfl, rfl, rfl⟩, rfl, rfl⟩

/-- The hypotheses of the theorems are met. -/
example : Has run.base (guards world pattern [.leaf .td]).truthy five :=
  then_partial sound (by simp [KeyOk]) five_td five_matches

example : (guards world pattern [.leaf .td, .leaf .config]).falsey = [.leaf .config] := by
  simp [pattern, guards, world, gather, dictPart, dictEntries, Dict.entry, Dict.literal, Dict.find,
    td, Pattern.guards]

example : ∃ (σ : Binds Val), Matches run pattern five σ :=
  exhaustive_partial (T := [.leaf .td]) sound (by simp [pattern, Plain, PlainAll, ArgsTotal])
    (by simp [pattern, Plain, PlainAll, Starless]) five_td (by
      simp [pattern, guards, world, gather, dictPart, dictEntries, Dict.entry, Dict.literal,
        Dict.find, td, Pattern.guards])

example : Bound run.base [(0, Val.atom (.int 5))] (guards world pattern [.leaf .td]).caps :=
  names_partial sound (fun _ _ _ _ => rfl) (fun _ => nofun)
    (by simp [pattern, Plain, PlainAll, OrsTotal]) (by simp [pattern, Plain, PlainAll, Starless])
    (by simp [pattern, KeysOk, KeysOkAll, KeyOk]) (.inl (by simp [pattern, Restless, RestlessAll]))
    five_td five_matches

example : (0, [Ty.leaf Base.int]) ∈ (guards world pattern [.leaf .td]).caps :=
  member_type (d := td) (s := 0) (f := ⟨0, [.leaf .int], true⟩) rfl
    (by simp [td]) (by simp) (by simp [td]) rfl (by simp [td])

example : (guards world (.map [(.number 3, .plain .wild)] none) [.leaf .td]).truthy = [] :=
  (impossible_key (k := .number 3) (p := .plain .wild) (by simp)
    (by simp [world])).1

example : (guards world (.map [(.text 0, .plain .wild)] (some 3)) [.leaf .td]).falsey = [] :=
  (required_rest rfl (fun _ => rfl) (fun _ => rfl)
    (fun e he => ⟨0, .wild, by simpa using he, trivial⟩) (by
      intro t ht
      obtain rfl := List.mem_singleton.mp ht
      exact ⟨td, rfl, by simp [td]⟩)).1

/-- A key that is a dotted name of type `Any`, or of type `str | int`, makes the pattern
impossible for a typed dict: the body of `case {key: n}` is reported as unreachable although it is
executed if the key is a member of the typed dict. -/
theorem dotted_key_violation :
    (guards world (.map [(.dotted 2, .plain (.capture 0))] none) [.leaf .td]).truthy = [] ∧
    (guards world (.map [(.dotted 3, .plain (.capture 0))] none) [.leaf .td]).truthy = [] ∧
    Matches run (.map [(.dotted 2, .plain (.capture 0))] none) five [(0, .atom (.int 5))] ∧
    Matches run (.map [(.dotted 3, .plain (.capture 0))] none) five [(0, .atom (.int 5))] := by
  refine ⟨?_, ?_, ?_, ?_⟩
  · simp [guards, world, gather, dictPart, dictEntries, Dict.entry, dottedTy, mightBeString]
  · simp [guards, world, gather, dictPart, dictEntries, Dict.entry, dottedTy, mightBeString]
  · simp only [Matches, MatchesEntries, Pattern.Matches]
    exact ⟨_, [(0, .atom (.int 5))], [], rfl, ⟨.atom (.int 5), _, _, rfl, rfl, rfl, rfl⟩, rfl, rfl⟩
  · simp only [Matches, MatchesEntries, Pattern.Matches]
    exact ⟨_, [(0, .atom (.int 5))], [], rfl, ⟨.atom (.int 5), _, _, rfl, rfl, rfl, rfl⟩, rfl, rfl⟩

/-- Nothing is left after `case {"0": int(6)}` if the member is an `int`, although `{"0": 5}` does
not match: the code after the case is reported as unreachable. -/
theorem refutable_value_violation :
    (guards world (.map [(.text 0, .plain (.cls 0 [.value 6] []))] none) [.leaf .td]).falsey = [] ∧
    Fails run (.map [(.text 0, .plain (.cls 0 [.value 6] []))] none) five := by
  constructor
  · simp [guards, world, gather, dictPart, dictEntries, Dict.entry, Dict.literal, Dict.find, td,
      Pattern.guards, guardsPos, guardsKw, classPart]
  · intro σ hm
    simp only [Matches, MatchesEntries, Pattern.Matches, MatchesPos] at hm
    obtain ⟨m, σ1, σ2, hm, ⟨x, τ1, τ2, hx, ⟨_, ρ1, ρ2, ⟨_, _, heq, _⟩, _⟩, _⟩, _⟩ := hm
    injection hm with hm
    subst hm
    injection hx with hx
    subst hx
    injection heq with heq
    injection heq with heq
    cases heq

/-- `{"0": 5, "1": "a"}` -/
def both : Val :=
  .dict fun k => if k = .str 0 then some (.int 5) else if k = .str 1 then some (.str 0) else none

/-- `{"1": "a"}` -/
def left : Val := .dict fun k => if k = .str 1 then some (.str 0) else none

/-- If `__getitem__` has overloads for keys, then `**rest` gets the type of the values of the keys
in the pattern: for `case {"0": _, **rest}` the rest has the type `dict[str, int]` although it is
`{"1": "a"}`. -/
theorem rest_violation :
    (guards world (.map [(.text 0, .plain .wild)] (some 7)) [.leaf .config]).caps =
      [(7, [.leaf .dictInt])] ∧
    Has run.base [.leaf .config] both ∧
    Matches run (.map [(.text 0, .plain .wild)] (some 7)) both [(7, left)] ∧
    ¬ Has run.base [.leaf .dictInt] left := by
  refine ⟨?_, ?_, ?_, ?_⟩
  · simp [guards, world, gather, entries, Pattern.guards, restCaps, configValue]
  · refine has_single.mpr ⟨?_, ?_, ?_⟩
    · intro k hk
      by_cases h : k = .str 0
      · exact ⟨0, h⟩
      · by_cases h' : k = .str 1
        · exact ⟨1, h'⟩
        · simp [h, h'] at hk
    · intro x hx
      simp at hx
      exact ⟨5, hx.symm⟩
    · intro s x hs hx
      simp only [Atom.str.injEq, hs, if_false] at hx
      split at hx
      · exact ⟨0, (Option.some.inj hx).symm⟩
      · cases hx
  · simp only [Matches, MatchesEntries, Pattern.Matches]
    refine ⟨_, [], [(7, left)], rfl, ⟨.atom (.int 5), [], [], rfl, rfl, rfl, rfl⟩, rfl, ?_⟩
    refine ⟨fun k =>
      match k with
      | .atom (.str 1) => some (.atom (.str 0))
      | _ => none, left, ⟨?_, ?_⟩, ⟨_, rfl, ?_⟩, rfl⟩
    · intro k hk
      simp only [List.map_cons, List.map_nil, List.mem_singleton] at hk
      subst hk
      rfl
    · intro k hk
      simp only [List.map_cons, List.map_nil, List.mem_singleton, Key.val, run] at hk
      match k with
      | .dict g => rfl
      | .atom (.int n) => simp
      | .atom (.str 0) => exact absurd rfl hk
      | .atom (.str 1) => simp
      | .atom (.str (s + 2)) => simp
    · intro k x hx
      split at hx
      · rename_i h
        subst h
        rw [← Option.some.inj hx]
        rfl
      · cases hx
  · intro h
    have h : isDictInt left := has_single.mp h
    obtain ⟨n, hn⟩ := h (.str 1) (.str 0) rfl
    cases hn

end Sample

end Verif.Mapping
