import Verif.Scope.Tame

/-! # What the steps of the name binder keep -/

namespace Verif.Scope

variable {q : Bool} {S : Scope} {rest : Ctx} {C : Ctx}

theorem lookup_mem {x : Name} {d : Node} {t : Table} (h : lookup x t = some d) : (x, d) ∈ t := by
  induction t with
  | nil => cases h
  | cons p t ih =>
    obtain ⟨y, e⟩ := p
    simp only [lookup] at h
    split at h
    · next e' => subst e'; cases h; exact .head _
    · exact .tail _ (ih h)

theorem lookup_none {x : Name} {t : Table} : lookup x t = none ↔ x ∉ names t := by
  induction t with
  | nil => simp [lookup, names]
  | cons p t ih =>
    obtain ⟨y, e⟩ := p
    simp only [lookup, names, List.map_cons, List.mem_cons, not_or]
    by_cases h : x = y
    · simp [h]
    · simp only [h, if_false, not_false_eq_true, true_and]; exact ih

theorem mem_names {x : Name} {ds : List (Name × Node)} : x ∈ names ds ↔ ∃ d, (x, d) ∈ ds := by
  simp [names]

@[simp] theorem names_nil : names [] = [] := rfl
@[simp] theorem names_append (a b : List (Name × Node)) : names (a ++ b) = names a ++ names b := by
  simp [names]
@[simp] theorem names_cons (p : Name × Node) (b : List (Name × Node)) :
    names (p :: b) = p.1 :: names b := rfl

theorem Scope.names_eq (S : Scope) : S.names = Verif.Scope.names S.binders := rfl

/-- The meaning of a name that is not bound in the innermost scope. -/
theorem meaning_cons_not {x : Name} (h : x ∉ S.names) : meaning (S :: rest) x = meaning rest x := by
  simp [meaning, List.find?_cons, h]

theorem meaning_cons {x : Name} (h : x ∈ S.names) : meaning (S :: rest) x = some S := by
  simp [meaning, h]

/-! ## Definitions -/

theorem define_names (id : Node) (x y : Name) (s : St) :
    y ∈ names (define id x s).frame.table ↔ y ∈ names s.frame.table ∨ y = x := by
  unfold define
  split
  · next d h =>
    have : x ∈ names s.frame.table := mem_names.mpr ⟨_, lookup_mem h⟩
    constructor
    · exact .inl
    · rintro (h | rfl) <;> assumption
  · simp

theorem define_mem {id : Node} {x : Name} {s : St} {p : Name × Node}
    (h : p ∈ (define id x s).frame.table) : p ∈ s.frame.table ∨ p = (x, id) := by
  unfold define at h
  split at h
  · exact .inl h
  · simpa using h

/-- Everything but the table. -/
def Same (F G : Frame) : Prop := F.kind = G.kind ∧ F.unordered = G.unordered ∧
  F.unresolved = G.unresolved ∧ F.toParent = G.toParent ∧ F.walruses = G.walruses

theorem Same.rfl' (F : Frame) : Same F F := ⟨rfl, rfl, rfl, rfl, rfl⟩
theorem Same.trans {F G H : Frame} (h : Same F G) (h' : Same G H) : Same F H := by
  obtain ⟨a, b, c, d, e⟩ := h; obtain ⟨a', b', c', d', e'⟩ := h'
  exact ⟨a.trans a', b.trans b', c.trans c', d.trans d', e.trans e'⟩

theorem define_same (id : Node) (x : Name) (s : St) :
    Same s.frame (define id x s).frame ∧ (define id x s).events = s.events := by
  unfold define
  split
  · exact ⟨Same.rfl' _, rfl⟩
  · exact ⟨⟨rfl, rfl, rfl, rfl, rfl⟩, rfl⟩

theorem defineAll_spec (ds : List (Name × Node)) (s : St) :
    (∀ y, y ∈ names (defineAll ds s).frame.table ↔ y ∈ names s.frame.table ∨ y ∈ names ds) ∧
    (∀ p ∈ (defineAll ds s).frame.table, p ∈ s.frame.table ∨ p ∈ ds) ∧
    Same s.frame (defineAll ds s).frame ∧ (defineAll ds s).events = s.events := by
  induction ds generalizing s with
  | nil => exact ⟨by simp [defineAll], fun p h => .inl h, Same.rfl' _, rfl⟩
  | cons d ds ih =>
    obtain ⟨x, id⟩ := d
    obtain ⟨h1, h2, h3, h4⟩ := ih (define id x s)
    obtain ⟨g1, g2⟩ := define_same id x s
    refine ⟨fun y => ?_, fun p hp => ?_, g1.trans h3, h4.trans g2⟩
    · show y ∈ names (defineAll ds (define id x s)).frame.table ↔ _
      rw [h1, define_names]; simp only [names_cons, List.mem_cons]; grind
    · rcases h2 p hp with h | h
      · rcases define_mem h with h | h
        · exact .inl h
        · subst h; exact .inr (.head _)
      · exact .inr (.tail _ h)

theorem defineWalruses_ne (ds : List (Name × Node)) (s : St) (h : s.frame.kind ≠ .comp) :
    defineWalruses ds s = defineAll ds s := by
  induction ds generalizing s with
  | nil => rfl
  | cons d ds ih =>
    obtain ⟨x, id⟩ := d
    have : defineWalrus id x s = define id x s := by
      unfold defineWalrus
      split
      · next h' => exact absurd h' h
      · rfl
    show defineWalruses ds (defineWalrus id x s) = defineAll ds (define id x s)
    rw [this]
    exact ih _ (by rw [← (define_same id x s).1.1]; exact h)

theorem defineWalruses_comp (ds : List (Name × Node)) (s : St) (h : s.frame.kind = .comp) :
    defineWalruses ds s =
      { s with frame := { s.frame with walruses := s.frame.walruses ++ ds } } := by
  induction ds generalizing s with
  | nil => simp [defineWalruses]
  | cons d ds ih =>
    obtain ⟨x, id⟩ := d
    have : defineWalrus id x s =
        { s with frame := { s.frame with walruses := s.frame.walruses ++ [(x, id)] } } := by
      unfold defineWalrus
      split
      · rfl
      · next h' => exact absurd h h'
    show defineWalruses ds (defineWalrus id x s) = _
    rw [this]
    refine (ih { s with frame := { s.frame with walruses := s.frame.walruses ++ [(x, id)] } }
      h).trans ?_
    simp

/-! ## What is left to do -/

/-- The uses that are left for later. -/
def owed (C : Ctx) : Unresolved → List Use
  | .func params body => body.uses (funcScope params body :: visible C)
  | .lambda params body => body.uses (lambdaScope params body :: visible C)
  | .comp c => c.uses (visible C)
  | .name id x => [.ref id x (meaning (visible C) x)]

/-- The uses that a scope has not resolved. -/
def pend (C : Ctx) (F : Frame) : List Use :=
  F.unordered.map (fun r => .ref r.1 r.2.1 (meaning C r.2.1)) ++
    F.toParent.map (fun r => .ref r.1 r.2 (meaning (C.drop 1) r.2)) ++
    F.unresolved.flatMap (owed C)

/-- What is written down between two states: each use is dealt with or still to do. -/
def Step (q : Bool) (C : Ctx) (s s' : St) (new : List Use) : Prop :=
  ∃ (evs : List Event) (handled : List Use), s'.events = s.events ++ evs ∧
    (∀ e ∈ evs, (∃ u ∈ handled, Right u e) ∨ (q = false ∧ ∃ id, e = .usedBefore id) ∨
      ∃ id, e = .issue id) ∧
    ((∀ u ∈ handled, ∃ e ∈ evs, Right u e) ∧
      ∀ id, .issue id ∈ evs ↔ ∃ x, .nonlocal id x none ∈ handled) ∧
    ∀ u, (u ∈ handled ∨ u ∈ pend C s'.frame) ↔ (u ∈ new ∨ u ∈ pend C s.frame)

theorem Step.trans {s s1 s2 : St} {new1 new2 : List Use} (h1 : Step q C s s1 new1)
    (h2 : Step q C s1 s2 new2) : Step q C s s2 (new1 ++ new2) := by
  obtain ⟨e1, d1, a1, b1, c1, f1⟩ := h1
  obtain ⟨e2, d2, a2, b2, c2, f2⟩ := h2
  refine ⟨e1 ++ e2, d1 ++ d2, by rw [a2, a1, List.append_assoc], ?_, ?_, ?_⟩
  · intro e he
    rcases List.mem_append.mp he with he | he
    · rcases b1 e he with ⟨u, hu, r⟩ | h
      · exact .inl ⟨u, List.mem_append_left _ hu, r⟩
      · exact .inr h
    · rcases b2 e he with ⟨u, hu, r⟩ | h
      · exact .inl ⟨u, List.mem_append_right _ hu, r⟩
      · exact .inr h
  · refine ⟨?_, fun id => ?_⟩
    · intro u hu
      rcases List.mem_append.mp hu with hu | hu
      · obtain ⟨e, he, r⟩ := c1.1 u hu; exact ⟨e, List.mem_append_left _ he, r⟩
      · obtain ⟨e, he, r⟩ := c2.1 u hu; exact ⟨e, List.mem_append_right _ he, r⟩
    · simp only [List.mem_append, c1.2, c2.2, exists_or]
  · intro u
    have := f1 u
    have := f2 u
    simp only [List.mem_append]
    grind

/-- Steps that write nothing down. -/
theorem Step.quiet {s s' : St} {new : List Use} (he : s'.events = s.events)
    (hp : ∀ u, u ∈ pend C s'.frame ↔ (u ∈ new ∨ u ∈ pend C s.frame)) : Step q C s s' new :=
  ⟨[], [], by simpa using he, by simp, by simp, by simpa using hp⟩

theorem pend_same {F G : Frame} (h : Same F G) : pend C G = pend C F := by
  obtain ⟨a, b, c, d, e⟩ := h
  simp [pend, b, c, d]

theorem Step.congr {s s' : St} {new new' : List Use} (h : Step q C s s' new)
    (hn : ∀ u, u ∈ new ↔ u ∈ new') : Step q C s s' new' := by
  obtain ⟨e, d, a, b, c, f⟩ := h
  exact ⟨e, d, a, b, c, fun u => by rw [f u, hn u]⟩

/-! ## The invariant of a scope -/

/-- Work that is covered. -/
def Unresolved.Tame (q : Bool) : Unresolved → Prop
  | .func params body => body.Tame q (funcScope params body) (names params) none
  | .lambda params body => body.Tame q (lambdaScope params body) true (names params) none
  | .comp c => c.walruses = [] ∧ c.outer = [] ∧ c.Tame q nowhere [] none
  | .name _ _ => True

/-- Whether it is a function. -/
def Unresolved.isFunc : Unresolved → Bool
  | .func _ _ => true
  | _ => false

/-- The scopes of statements. -/
def Kind.holds (k : Kind) : Prop := k = .global ∨ k = .function ∨ k = .cls

/-- The state of a scope on the way. -/
structure Inv (q : Bool) (S : Scope) (above : List Name) (soon : Option (List Name)) (F : Frame) :
    Prop where
  kind : F.kind = S.kind
  table : ∀ p ∈ F.table, p ∈ S.binders
  names : ∀ x, x ∈ names F.table ↔ x ∈ above
  pending : (q = true ∨ S.kind = .cls ∨ S.loops = true) → ∀ r ∈ F.unordered, r.2.1 ∈ S.names →
    (∃ L, soon = some L ∧ r.2.1 ∈ L) ∧ ¬ (r.2.2 = true ∧ q = true)
  tame : ∀ u ∈ F.unresolved, u.Tame q
  funcs : ∀ u ∈ F.unresolved, u.isFunc = true → S.kind.holds

theorem Inv.congr {above above' : List Name} {soon : Option (List Name)} {F : Frame}
    (h : Inv q S above soon F) (he : ∀ x, x ∈ above ↔ x ∈ above') : Inv q S above' soon F :=
  { h with names := fun x => by rw [h.names, he] }

theorem Inv.define {above : List Name} {soon : Option (List Name)} {s : St}
    (h : Inv q S above soon s.frame) {id : Node} {x : Name} (hm : (x, id) ∈ S.binders) :
    Inv q S (above ++ [x]) soon (define id x s).frame := by
  obtain ⟨⟨a, b, c, d, e⟩, -⟩ := define_same id x s
  refine ⟨a ▸ h.kind, fun p hp => ?_, fun y => ?_, b ▸ h.pending, c ▸ h.tame, c ▸ h.funcs⟩
  · rcases define_mem hp with hp | rfl
    · exact h.table p hp
    · exact hm
  · rw [define_names, h.names]; simp

theorem define_step (id : Node) (x : Name) (s : St) : Step q C s (define id x s) [] := by
  obtain ⟨h, e⟩ := define_same id x s
  exact Step.quiet e fun u => by rw [pend_same h]; simp

theorem Inv.defineAll {above : List Name} {soon : Option (List Name)} {s : St}
    (h : Inv q S above soon s.frame) {ds : List (Name × Node)} (hm : ∀ p ∈ ds, p ∈ S.binders) :
    Inv q S (above ++ Verif.Scope.names ds) soon (defineAll ds s).frame := by
  obtain ⟨h1, h2, ⟨a, b, c, d, e⟩, -⟩ := defineAll_spec ds s
  refine ⟨a ▸ h.kind, fun p hp => ?_, fun y => ?_, b ▸ h.pending, c ▸ h.tame, c ▸ h.funcs⟩
  · rcases h2 p hp with hp | hp
    · exact h.table p hp
    · exact hm p hp
  · rw [h1, h.names]; simp

theorem defineAll_step (ds : List (Name × Node)) (s : St) : Step q C s (defineAll ds s) [] := by
  obtain ⟨-, -, h, e⟩ := defineAll_spec ds s
  exact Step.quiet e fun u => by rw [pend_same h]; simp

/-! ## References -/

/-- A name that is found. -/
theorem found_step {s : St} {id : Node} {x : Name} {d : Node} (ht : ∀ p ∈ s.frame.table, p ∈ S.binders)
    (hl : lookup x s.frame.table = some d) :
    Step q (S :: rest) s { s with events := s.events ++ [.redirect id d] }
      [.ref id x (meaning (S :: rest) x)] := by
  have hm := ht _ (lookup_mem hl)
  have : x ∈ S.names := mem_names.mpr ⟨d, hm⟩
  rw [meaning_cons this]
  refine ⟨[.redirect id d], [.ref id x (some S)], rfl, ?_, ?_, ?_⟩
  · intro e he
    simp only [List.mem_singleton] at he
    subst he
    exact .inl ⟨_, .head _, .ref hm⟩
  · refine ⟨?_, by simp⟩
    intro u hu
    simp only [List.mem_singleton] at hu
    subst hu
    exact ⟨_, .head _, .ref hm⟩
  · intro u; simp

/-- A name that is passed on. -/
theorem passed_step {s : St} {id : Node} {x : Name} (hn : x ∉ S.names) :
    Step q (S :: rest) s
      { s with frame := { s.frame with toParent := s.frame.toParent ++ [(id, x)] } }
      [.ref id x (meaning (S :: rest) x)] := by
  refine Step.quiet rfl fun u => ?_
  rw [meaning_cons_not hn]
  simp only [pend, List.map_append, List.map_cons, List.map_nil, List.mem_append, List.drop_succ_cons,
    List.drop_zero, List.mem_singleton]
  grind

theorem addReference_step {above : List Name} {soon : Option (List Name)} {s : St}
    (h : Inv q S above soon s.frame) {ordered : Bool} {id : Node} {x : Name}
    (hx : MayUse q S ordered above soon x) (ho : soon = none → ordered = true) :
    Inv q S above soon (addReference id x ordered s).frame ∧
      Step q (S :: rest) s (addReference id x ordered s) [.ref id x (meaning (S :: rest) x)] ∧
      (addReference id x ordered s).frame.walruses = s.frame.walruses := by
  unfold addReference
  split
  · next d hl => exact ⟨h, found_step h.table hl, rfl⟩
  · next hl =>
    have hl := lookup_none.mp hl
    rw [h.names] at hl
    split
    · next hc =>
      refine ⟨{ h with pending := ?_ }, ?_, rfl⟩
      · intro hs r hr hrn
        simp only [List.mem_append, List.mem_singleton] at hr
        rcases hr with hr | rfl
        · exact h.pending hs r hr hrn
        · have := hx hs hrn
          simp only [h.kind] at hc
          split at this
          · exact absurd this hl
          · next hno =>
            cases soon with
            | none => exact absurd this hl
            | some L =>
              exact ⟨⟨L, rfl, this⟩, fun e => hno ⟨e.1, .inl e.2⟩⟩
      · refine Step.quiet rfl fun u => ?_
        simp only [pend, List.map_append, List.map_cons, List.map_nil, List.mem_append,
          List.mem_singleton]
        grind
    · next hc =>
      refine ⟨{ h with }, passed_step ?_, rfl⟩
      simp only [h.kind, ne_eq, Bool.or_eq_true, Bool.not_eq_true', decide_eq_true_eq, not_or,
        Bool.not_eq_false, Decidable.not_not] at hc
      intro hn
      have := hx (.inr (.inl hc.2)) hn
      rw [if_pos ⟨hc.1, .inr hc.2⟩] at this
      exact hl this

/-! ## Flushing -/

theorem flushAll_step {us : List (Node × Name × Bool)} {s : St}
    (ht : ∀ p ∈ s.frame.table, p ∈ S.binders)
    (hu : ∀ r ∈ us, r.2.1 ∈ S.names → r.2.1 ∈ names s.frame.table)
    (hq : q = true → ∀ r ∈ us, r.2.2 = true → r.2.1 ∉ S.names) :
    Step q (S :: rest) s (flushAll us s)
        (us.map fun r => .ref r.1 r.2.1 (meaning (S :: rest) r.2.1)) ∧
      (flushAll us s).frame.kind = s.frame.kind ∧ (flushAll us s).frame.table = s.frame.table ∧
      (flushAll us s).frame.unordered = s.frame.unordered ∧
      (flushAll us s).frame.unresolved = s.frame.unresolved ∧
      (flushAll us s).frame.walruses = s.frame.walruses := by
  induction us generalizing s with
  | nil => exact ⟨Step.quiet rfl fun u => by simp [flushAll], rfl, rfl, rfl, rfl, rfl⟩
  | cons r us ih =>
    obtain ⟨id, x, o⟩ := r
    simp only [flushAll]
    split
    · next d hl =>
      have hm := ht _ (lookup_mem hl)
      have hx : x ∈ S.names := mem_names.mpr ⟨d, hm⟩
      have h := ih (s := { s with events := s.events ++ .redirect id d ::
        if o = true then [.usedBefore id] else [] }) ht
        (fun r hr => hu r (.tail _ hr)) (fun h r hr => hq h r (.tail _ hr))
      refine ⟨?_, h.2⟩
      have hs : Step q (S :: rest) s { s with events := s.events ++ .redirect id d ::
          if o = true then [.usedBefore id] else [] } [.ref id x (meaning (S :: rest) x)] := by
        rw [meaning_cons hx]
        refine ⟨.redirect id d :: (if o = true then [.usedBefore id] else []),
          [.ref id x (some S)], rfl, ?_, ?_, ?_⟩
        · intro e he
          rcases List.mem_cons.mp he with rfl | he
          · exact .inl ⟨_, .head _, .ref hm⟩
          · split at he
            · next ho =>
              simp only [List.mem_singleton] at he
              subst he
              refine .inr (.inl ⟨?_, id, rfl⟩)
              cases q with
              | false => rfl
              | true => exact absurd hx (hq rfl _ (.head _) ho)
            · cases he
        · refine ⟨?_, by split <;> simp⟩
          intro u hu
          simp only [List.mem_singleton] at hu
          subst hu
          exact ⟨_, .head _, .ref hm⟩
        · intro u; simp
      exact hs.trans h.1
    · next hl =>
      have hl := lookup_none.mp hl
      have h := ih (s := { s with frame := { s.frame with
        toParent := s.frame.toParent ++ [(id, x)] } }) ht
        (fun r hr => hu r (.tail _ hr)) (fun h r hr => hq h r (.tail _ hr))
      refine ⟨?_, h.2⟩
      have hs := passed_step (q := q) (S := S) (rest := rest) (s := s) (id := id) (x := x)
        (fun hn => hl (hu _ (.head _) hn))
      exact hs.trans h.1

theorem flush_step {s : St} (ht : ∀ p ∈ s.frame.table, p ∈ S.binders)
    (hu : ∀ r ∈ s.frame.unordered, r.2.1 ∈ S.names → r.2.1 ∈ names s.frame.table)
    (hq : q = true → ∀ r ∈ s.frame.unordered, r.2.2 = true → r.2.1 ∉ S.names) :
    Step q (S :: rest) s (flush s) [] ∧
      (flush s).frame.kind = s.frame.kind ∧ (flush s).frame.table = s.frame.table ∧
      (flush s).frame.unordered = [] ∧
      (flush s).frame.unresolved = s.frame.unresolved ∧
      (flush s).frame.walruses = s.frame.walruses := by
  have h := flushAll_step (q := q) (rest := rest) (us := s.frame.unordered)
    (s := { s with frame := { s.frame with unordered := [] } }) ht hu hq
  refine ⟨?_, h.2⟩
  obtain ⟨e, d, a, b, c, f⟩ := h.1
  refine ⟨e, d, a, b, c, fun u => ?_⟩
  rw [flush, f u]
  simp only [pend, List.map_nil, List.nil_append, List.not_mem_nil, false_or, List.mem_append]
  grind

end Verif.Scope
