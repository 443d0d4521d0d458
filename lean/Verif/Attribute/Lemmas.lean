import Verif.Attribute.Spec

/-!
# Lemmas about attributes
-/

namespace Verif.Attribute

variable {w : World}

theorem firstIn_some {α : Type} {f : Class → Option α} {cs : List Nat} {c : Nat} {a : α} :
    firstIn w f cs = some (c, a) ↔ Finds (fun c => f (w.cls c)) cs c a := by
  induction cs with
  | nil => simp [firstIn, Finds]
  | cons x xs ih =>
    constructor
    · intro h
      unfold firstIn at h
      split at h
      · next b hb =>
        injection h with h
        injection h with h1 h2
        subst h1 h2
        exact ⟨[], xs, rfl, hb, by simp⟩
      · next hb =>
        obtain ⟨l, r, e, h1, h2⟩ := ih.1 h
        refine ⟨x :: l, r, by rw [e]; rfl, h1, ?_⟩
        intro y hy
        rcases List.mem_cons.1 hy with rfl | hy
        · exact hb
        · exact h2 y hy
    · rintro ⟨l, r, e, h1, h2⟩
      unfold firstIn
      cases l with
      | nil =>
        injection e with e1 e2
        subst e1
        simp only at h1
        rw [h1]
      | cons y l =>
        injection e with e1 e2
        subst e1
        have := h2 x (by simp)
        simp only at this
        rw [this]
        exact ih.2 ⟨l, r, e2, h1, fun z hz => h2 z (by simp [hz])⟩

theorem firstIn_none {α : Type} {f : Class → Option α} {cs : List Nat} :
    firstIn w f cs = none ↔ Lacks (fun c => f (w.cls c)) cs := by
  induction cs with
  | nil => simp [firstIn, Lacks]
  | cons x xs ih =>
    unfold firstIn
    cases h : f (w.cls x) with
    | none => simp only [ih, Lacks, List.mem_cons, forall_eq_or_imp, h, true_and]
    | some a => simp [Lacks, h]

theorem lacks_or_finds {α : Type} (f : Nat → Option α) (cs : List Nat) :
    Lacks f cs ∨ ∃ c a, Finds f cs c a := by
  induction cs with
  | nil => exact Or.inl (by simp [Lacks])
  | cons x xs ih =>
    cases h : f x with
    | some a => exact Or.inr ⟨x, a, [], xs, rfl, h, by simp⟩
    | none =>
      rcases ih with ih | ⟨c, a, l, r, e, h1, h2⟩
      · left; intro y hy; rcases List.mem_cons.1 hy with rfl | hy
        · exact h
        · exact ih y hy
      · right
        refine ⟨c, a, x :: l, r, by rw [e]; rfl, h1, ?_⟩
        intro y hy; rcases List.mem_cons.1 hy with rfl | hy
        · exact h
        · exact h2 y hy

theorem finds_unique {α : Type} {f : Nat → Option α} {cs : List Nat} {c d : Nat} {a b : α}
    (h : Finds f cs c a) (h' : Finds f cs d b) : c = d ∧ a = b := by
  induction cs with
  | nil => obtain ⟨l, r, e, -, -⟩ := h; simp at e
  | cons x xs ih =>
    obtain ⟨l, r, e, h1, h2⟩ := h
    obtain ⟨l', r', e', h1', h2'⟩ := h'
    cases l with
    | nil =>
      injection e with e1 e2
      subst e1
      cases l' with
      | nil => injection e' with e1 e2; subst e1; rw [h1] at h1'; exact ⟨rfl, by injection h1'⟩
      | cons y l' =>
        injection e' with e1 e2; subst e1
        have := h2' x (by simp); rw [h1] at this; cases this
    | cons y l =>
      injection e with e1 e2
      subst e1
      cases l' with
      | nil =>
        injection e' with e1 e2; subst e1
        have := h2 x (by simp); rw [h1'] at this; cases this
      | cons y l' =>
        injection e' with e1 e2'
        exact ih ⟨l, r, e2, h1, fun z hz => h2 z (by simp [hz])⟩
          ⟨l', r', e2', h1', fun z hz => h2' z (by simp [hz])⟩

theorem finds_not_lacks {α : Type} {f : Nat → Option α} {cs : List Nat} {c : Nat} {a : α}
    (h : Finds f cs c a) (h' : Lacks f cs) : False := by
  obtain ⟨l, r, e, h1, -⟩ := h
  have := h' c (by rw [e]; simp)
  rw [h1] at this; cases this

theorem Finds.mem {α : Type} {f : Nat → Option α} {cs : List Nat} {c : Nat} {a : α}
    (h : Finds f cs c a) : c ∈ cs ∧ f c = some a := by
  obtain ⟨l, r, e, h1, -⟩ := h
  exact ⟨by rw [e]; simp, h1⟩

theorem dunderGet_some {d : Nat} {p : Ty × Ty} : dunderGet w d = some p ↔ Getter w d p := by
  unfold dunderGet Getter
  constructor
  · intro h
    cases h' : firstIn w (·.get) (w.cls d).mro with
    | none => rw [h'] at h; cases h
    | some r =>
      obtain ⟨c, a⟩ := r
      rw [h'] at h
      injection h with h; simp only at h; subst h
      exact ⟨c, firstIn_some.1 h'⟩
  · rintro ⟨c, h⟩
    rw [firstIn_some.2 h]; rfl

theorem dunderSet_some {d : Nat} {S : Ty} : dunderSet w d = some S ↔ SetterOf w d S := by
  unfold dunderSet SetterOf
  constructor
  · intro h
    cases h' : firstIn w (·.set) (w.cls d).mro with
    | none => rw [h'] at h; cases h
    | some r =>
      obtain ⟨c, a⟩ := r
      rw [h'] at h
      injection h with h; simp only at h; subst h
      exact ⟨c, firstIn_some.1 h'⟩
  · rintro ⟨c, h⟩
    rw [firstIn_some.2 h]; rfl

theorem dunderGet_none {d : Nat} : dunderGet w d = none ↔ ∀ p, ¬ Getter w d p := by
  constructor
  · intro h p hp; rw [dunderGet_some.2 hp] at h; cases h
  · intro h
    cases h' : dunderGet w d with
    | none => rfl
    | some p => exact absurd (dunderGet_some.1 h') (h p)

theorem dunderSet_none {d : Nat} : dunderSet w d = none ↔ ∀ S, ¬ SetterOf w d S := by
  constructor
  · intro h p hp; rw [dunderSet_some.2 hp] at h; cases h
  · intro h
    cases h' : dunderSet w d with
    | none => rfl
    | some p => exact absurd (dunderSet_some.1 h') (h p)

theorem decl_split (name : Nat) (cs : List Nat) :
    (∀ x ∈ cs, (w.cls x).attrs name = none ∧ (w.cls x).selfs name = none) ∨
    ∃ c l r, cs = l ++ c :: r ∧
      (∀ x ∈ l, (w.cls x).attrs name = none ∧ (w.cls x).selfs name = none) ∧
      ((w.cls c).attrs name ≠ none ∨ (w.cls c).selfs name ≠ none) := by
  induction cs with
  | nil => exact Or.inl (by simp)
  | cons x xs ih =>
    by_cases h : (w.cls x).attrs name = none ∧ (w.cls x).selfs name = none
    · rcases ih with ih | ⟨c, l, r, e, h1, h2⟩
      · left
        intro y hy
        rcases List.mem_cons.1 hy with rfl | hy
        · exact h
        · exact ih y hy
      · right
        refine ⟨c, x :: l, r, by rw [e]; rfl, ?_, h2⟩
        intro y hy
        rcases List.mem_cons.1 hy with rfl | hy
        · exact h
        · exact h1 y hy
    · right
      refine ⟨x, [], xs, rfl, by simp, ?_⟩
      by_cases h' : (w.cls x).attrs name = none
      · exact Or.inr fun h'' => h ⟨h', h''⟩
      · exact Or.inl h'

theorem firstDecl_or (C name : Nat) : ¬ Declared w C name ∨ ∃ c, FirstDecl w C name c := by
  rcases decl_split (w := w) name (w.cls C).mro with h | ⟨c, l, r, h⟩
  · left
    rintro ⟨c, hc, h' | h'⟩
    · exact h' (h c hc).1
    · exact h' (h c hc).2
  · exact Or.inr ⟨c, l, r, h⟩

theorem FirstDecl.mem {C name c : Nat} (h : FirstDecl w C name c) : c ∈ (w.cls C).mro := by
  obtain ⟨l, r, e, -, -⟩ := h; rw [e]; simp

theorem FirstDecl.declared {C name c : Nat} (h : FirstDecl w C name c) : Declared w C name := by
  obtain ⟨l, r, e, -, h'⟩ := id h
  exact ⟨c, h.mem, h'⟩

theorem undeclared {C name : Nat} (h : ¬ Declared w C name) :
    ∀ x ∈ (w.cls C).mro, (w.cls x).attrs name = none ∧ (w.cls x).selfs name = none := by
  intro x hx
  constructor
  · cases h' : (w.cls x).attrs name with
    | none => rfl
    | some e => exact absurd ⟨x, hx, Or.inl (by rw [h']; simp)⟩ h
  · cases h' : (w.cls x).selfs name with
    | none => rfl
    | some e => exact absurd ⟨x, hx, Or.inr (by rw [h']; simp)⟩ h

theorem walk_append {name : Nat} {l r : List Nat}
    (h : ∀ x ∈ l, (w.cls x).attrs name = none ∧ (w.cls x).selfs name = none) :
    walk w name (l ++ r) = walk w name r := by
  induction l with
  | nil => rfl
  | cons x xs ih =>
    obtain ⟨h1, h2⟩ := h x (by simp)
    rw [List.cons_append, walk, h1, h2]
    exact ih fun y hy => h y (by simp [hy])

theorem walk_undeclared {C name : Nat} (h : ¬ Declared w C name) :
    walk w name (w.cls C).mro = none := by
  have := walk_append (w := w) (r := []) (undeclared h)
  rw [List.append_nil] at this
  rw [this]; rfl

theorem walk_attr {C name c : Nat} {e : Entry} (h : FirstDecl w C name c)
    (he : (w.cls c).attrs name = some e) : walk w name (w.cls C).mro = some (bind w c e) := by
  obtain ⟨l, r, hm, hl, -⟩ := h
  rw [hm, walk_append hl]
  unfold walk
  rw [he]

theorem walk_self {C name c : Nat} {t : Ty} {f : Bool} (h : FirstDecl w C name c)
    (he : (w.cls c).attrs name = none) (hs : (w.cls c).selfs name = some (t, f)) :
    walk w name (w.cls C).mro = some (t, if f then .final else .attribute) := by
  obtain ⟨l, r, hm, hl, -⟩ := h
  rw [hm, walk_append hl]
  unfold walk
  rw [he, hs]

theorem firstIn_attr {C name c : Nat} {e : Entry} (h : FirstDecl w C name c)
    (he : (w.cls c).attrs name = some e) :
    firstIn w (fun c => c.attrs name) (w.cls C).mro = some (c, e) := by
  obtain ⟨l, r, hm, hl, -⟩ := h
  exact firstIn_some.2 ⟨l, r, hm, he, fun x hx => (hl x hx).1⟩

theorem lookup_of_walk {hooks : Bool} {C name : Nat} {r : Ty × Kind}
    (h : walk w name (w.cls C).mro = some r) : lookup w hooks C name = some r := by
  unfold lookup; rw [h]

theorem compat_sound (ho : Ordered w) {U T : Ty} {v : Val} (hu : U ≠ .any) (hv : Has w v U)
    (h : compat w U T = true) : Has w v T := by
  cases T with
  | any => trivial
  | cls d =>
    cases U with
    | any => exact absurd rfl hu
    | fn s => cases h
    | cls c =>
      obtain ⟨x, h1, h2⟩ := hv
      exact ⟨x, h1, ho.2 _ _ _ h2 (by simpa [compat, IsSub] using h)⟩
    | union cs =>
      obtain ⟨x, h1, c, hc, h2⟩ := hv
      have := List.all_eq_true.1 (by simpa only [compat] using h) c hc
      exact ⟨x, h1, ho.2 _ _ _ h2 (by simpa [IsSub] using this)⟩
  | union ds =>
    cases U with
    | any => exact absurd rfl hu
    | fn s => cases h
    | cls c =>
      obtain ⟨x, h1, h2⟩ := hv
      obtain ⟨d, hd, h3⟩ := List.any_eq_true.1 (by simpa only [compat] using h)
      exact ⟨x, h1, d, hd, ho.2 _ _ _ h2 (by simpa [IsSub] using h3)⟩
    | union cs =>
      obtain ⟨x, h1, c, hc, h2⟩ := hv
      have := List.all_eq_true.1 (by simpa only [compat] using h) c hc
      obtain ⟨d, hd, h3⟩ := List.any_eq_true.1 this
      exact ⟨x, h1, d, hd, ho.2 _ _ _ h2 (by simpa [IsSub] using h3)⟩
  | fn s =>
    cases U with
    | any => exact absurd rfl hu
    | cls c => cases h
    | union cs => cases h
    | fn s' =>
      simp only [compat, beq_iff_eq] at h
      subst h; exact hv

theorem check_nil {U T : Ty} : check w U T = [] ↔ compat w U T = true := by
  unfold check; split <;> simp_all

theorem conform_some {D : Dicts} (hc : Conform w D) {c name : Nat} {e : Entry}
    (h : (w.cls c).attrs name = some e) : FitsEntry w (D c name) e := by
  have := hc c name
  rw [h] at this
  exact this

theorem conform_none {D : Dicts} (hc : Conform w D) {c name : Nat}
    (h : (w.cls c).attrs name = none) : D c name = none := by
  have := hc c name
  rw [h] at this
  exact this

theorem noValue {D : Dicts} {C name : Nat} (h : ∀ x ∈ (w.cls C).mro, D x name = none) :
    Nowhere w D C name ∨ AtSlot w D C name := by
  rcases lacks_or_finds (cell w D name) (w.cls C).mro with h' | ⟨c, a, h'⟩
  · exact Or.inl h'
  · cases a with
    | slot => exact Or.inr ⟨c, h'⟩
    | val v =>
      obtain ⟨hm, he⟩ := h'.mem
      unfold cell at he
      rw [h c hm] at he
      simp only at he
      split at he
      · split at he
        · cases he
        · cases he
      · cases he

theorem noValue_atClass {D : Dicts} {C name : Nat} {d : Val}
    (h : ∀ x ∈ (w.cls C).mro, D x name = none) (h' : AtClass w D C name d) : False := by
  obtain ⟨c, hc⟩ := h'
  rcases noValue h with h1 | ⟨c', h1⟩
  · exact finds_not_lacks hc h1
  · cases (finds_unique hc h1).2

theorem atClass_unique {D : Dicts} {C name : Nat} {d d' : Val} (h : AtClass w D C name d)
    (h' : AtClass w D C name d') : d = d' := by
  obtain ⟨c, h⟩ := h
  obtain ⟨c', h'⟩ := h'
  have := (finds_unique h h').2
  injection this

theorem atClass_atSlot {D : Dicts} {C name : Nat} {d : Val} (h : AtClass w D C name d)
    (h' : AtSlot w D C name) : False := by
  obtain ⟨c, h⟩ := h
  obtain ⟨c', h'⟩ := h'
  cases (finds_unique h h').2

theorem atClass_nowhere {D : Dicts} {C name : Nat} {d : Val} (h : AtClass w D C name d)
    (h' : Nowhere w D C name) : False := by
  obtain ⟨c, h⟩ := h
  exact finds_not_lacks h h'

theorem atClass_of {D : Dicts} (hc : Conform w D) {C name c : Nat} {v : Val}
    (hs : ∀ c ∈ (w.cls C).mro, ∀ ss, (w.cls c).slots = some ss → name ∈ ss →
      ∀ x ∈ (w.cls C).mro, D x name = none)
    (h : FirstDecl w C name c) (hv : D c name = some v) : AtClass w D C name v := by
  have hm := h.mem
  obtain ⟨l, r, e, hl, -⟩ := h
  refine ⟨c, l, r, e, by unfold cell; rw [hv], ?_⟩
  intro x hx
  unfold cell
  rw [conform_none hc (hl x hx).1]
  simp only
  split
  · next ss hss =>
    split
    · next hn =>
      have := hs x (by rw [e]; simp [hx]) ss hss hn c hm
      rw [hv] at this; cases this
    · rfl
  · rfl

/-- What there is for a declared name. -/
theorem situation {D : Dicts} (hc : Conform w D) {C name : Nat} (hr : Regular w D C name)
    (hd : Declared w C name) :
    (∃ c e v, FirstDecl w C name c ∧ (w.cls c).attrs name = some e ∧ D c name = some v ∧
      AtClass w D C name v ∧ FitsEntry w (some v) e) ∨
    (∃ c k t, FirstDecl w C name c ∧ (w.cls c).attrs name = some (.ann k t) ∧
      (Nowhere w D C name ∨ AtSlot w D C name) ∧ (∀ x ∈ (w.cls C).mro, D x name = none) ∧
      ∀ d, t = .cls d → ¬ IsDescr w d) ∨
    (∃ c t f, FirstDecl w C name c ∧ (w.cls c).attrs name = none ∧
      (w.cls c).selfs name = some (t, f) ∧ (∀ x ∈ (w.cls C).mro, (w.cls x).attrs name = none) ∧
      (Nowhere w D C name ∨ AtSlot w D C name) ∧ (∀ x ∈ (w.cls C).mro, D x name = none) ∧
      ∀ d, t = .cls d → ¬ IsDescr w d) := by
  rcases firstDecl_or (w := w) C name with h | ⟨c, hf⟩
  · exact absurd hd h
  cases ha : (w.cls c).attrs name with
  | some e =>
    have fit := conform_some hc ha
    cases hv : D c name with
    | some v =>
      rw [hv] at fit
      exact Or.inl ⟨c, e, v, hf, ha, hv, atClass_of hc hr.slotted hf hv, fit⟩
    | none =>
      rw [hv] at fit
      have hall := hr.here c hf hv
      right; left
      cases e with
      | ann k t =>
        refine ⟨c, k, t, hf, ha, noValue hall, hall, ?_⟩
        intro d hd' hdesc
        exact fit.2 d hd' hdesc rfl
      | method s => cases fit
      | prop r s => cases s <;> cases fit
      | classm s => cases fit
      | static s => cases fit
      | val t =>
        cases t with
        | fn s => cases fit
        | any => obtain ⟨u, h, -⟩ := fit; cases h
        | cls d => obtain ⟨u, h, -⟩ := fit; cases h
        | union d => obtain ⟨u, h, -⟩ := fit; cases h
  | none =>
    have hall := hr.order c hf ha
    have hD : ∀ x ∈ (w.cls C).mro, D x name = none := fun x hx => conform_none hc (hall x hx)
    cases hs : (w.cls c).selfs name with
    | none =>
      obtain ⟨l, r, e, hl, h' | h'⟩ := hf
      · exact absurd ha h'
      · exact absurd hs h'
    | some p =>
      obtain ⟨t, f⟩ := p
      refine Or.inr (Or.inr ⟨c, t, f, hf, ha, hs, hall, noValue hD, hD, ?_⟩)
      intro d hd'
      subst hd'
      exact hr.plainSelf c hf.mem d f hs

theorem target_attr {C name c : Nat} {e : Entry} (h : FirstDecl w C name c)
    (he : (w.cls c).attrs name = some e) :
    target w C name = match classTarget w e with
      | some r => some r
      | none => some (.ty (bind w c e).1, (bind w c e).2) := by
  unfold target
  rw [firstIn_attr h he, lookup_of_walk (walk_attr h he)]
  dsimp only
  cases classTarget w e <;> rfl

theorem target_self {C name c : Nat} {t : Ty} {f : Bool} (h : FirstDecl w C name c)
    (he : (w.cls c).attrs name = none) (hs : (w.cls c).selfs name = some (t, f))
    (hall : ∀ x ∈ (w.cls C).mro, (w.cls x).attrs name = none) :
    target w C name = some (.ty t, if f then .final else .attribute) := by
  have : firstIn w (fun c => c.attrs name) (w.cls C).mro = none := firstIn_none.2 hall
  unfold target
  rw [this, lookup_of_walk (walk_self h he hs)]
  rfl

theorem read_attr {C name c : Nat} {e : Entry} (h : FirstDecl w C name c)
    (he : (w.cls c).attrs name = some e) : read w C name = some (bind w c e).1 := by
  unfold read; rw [lookup_of_walk (walk_attr h he)]; rfl

theorem read_self {C name c : Nat} {t : Ty} {f : Bool} (h : FirstDecl w C name c)
    (he : (w.cls c).attrs name = none) (hs : (w.cls c).selfs name = some (t, f)) :
    read w C name = some t := by
  unfold read; rw [lookup_of_walk (walk_self h he hs)]; rfl

theorem target_undeclared {C name : Nat} (h : ¬ Declared w C name)
    (hi : (w.cls C).incomplete = false) : target w C name = none := by
  have : firstIn w (fun c => c.attrs name) (w.cls C).mro = none :=
    firstIn_none.2 fun x hx => (undeclared h x hx).1
  unfold target lookup
  rw [this, walk_undeclared h]
  simp [hi]

theorem notDescr {d : Nat} (h : ¬ IsDescr w d) : dunderGet w d = none ∧ dunderSet w d = none :=
  ⟨dunderGet_none.2 fun p hp => h (Or.inl ⟨p, hp⟩), dunderSet_none.2 fun S hS => h (Or.inr ⟨S, hS⟩)⟩

theorem writeRest_compat {C name : Nat} {U t : Ty} (h : writeRest w C name U t = []) :
    compat w U t = true := by
  unfold writeRest at h
  exact check_nil.1 (List.append_eq_nil_iff.1 h).2

/-- What an accepted assignment to a name with a type says. -/
theorem writeType_compat {C name : Nat} {U t : Ty} {k : Kind}
    (h : (writeType w C name U t k).1 = []) :
    k ≠ .final ∧ (match t with
      | .cls d => (∃ S, dunderSet w d = some S ∧ compat w U S = true) ∨
          (dunderSet w d = none ∧ ∃ p, dunderGet w d = some p ∧ compat w U p.1 = true) ∨
          (dunderSet w d = none ∧ dunderGet w d = none ∧ compat w U t = true)
      | .fn _ => k.overwritable = true ∧ compat w U t = true
      | _ => compat w U t = true) := by
  have hk : k ≠ .final := by
    intro hk
    subst hk
    unfold writeType at h
    cases t with
    | cls d =>
      simp only at h
      cases h1 : dunderSet w d with
      | some S => rw [h1] at h; simp at h
      | none =>
        rw [h1] at h
        cases h2 : dunderGet w d with
        | some p => rw [h2] at h; simp at h
        | none => rw [h2] at h; simp at h
    | any => simp at h
    | union ds => simp at h
    | fn s => simp at h
  refine ⟨hk, ?_⟩
  have hk' : (k == Kind.final) = false := by simpa using hk
  unfold writeType at h
  rw [hk'] at h
  cases t with
  | cls d =>
    simp only at h ⊢
    cases h1 : dunderSet w d with
    | some S =>
      rw [h1] at h
      exact Or.inl ⟨S, rfl, check_nil.1 (by simpa using h)⟩
    | none =>
      rw [h1] at h
      right
      cases h2 : dunderGet w d with
      | some p =>
        rw [h2] at h
        exact Or.inl ⟨rfl, p, rfl, check_nil.1 (by simpa using h)⟩
      | none =>
        rw [h2] at h
        exact Or.inr ⟨rfl, rfl, writeRest_compat (by simpa using h)⟩
  | any => cases U <;> rfl
  | union ds =>
    simp only at h ⊢
    exact writeRest_compat (List.append_eq_nil_iff.1 h).2
  | fn s =>
    simp only at h ⊢
    obtain ⟨h1, h2⟩ := List.append_eq_nil_iff.1 h
    refine ⟨?_, writeRest_compat h2⟩
    have h1 := (List.append_eq_nil_iff.1 h1).2
    unfold methodIssue at h1
    simp only at h1
    split at h1
    · assumption
    · cases h1

theorem hasSet_cls {c i d : Nat} (h : ∀ S, SetterOf w c S ↔ SetterOf w d S) {S : Ty}
    (hS : dunderSet w d = some S) : HasSet w (.obj c i) :=
  ⟨S, (h S).2 (dunderSet_some.1 hS)⟩

theorem annCompat {D : Dicts} (hc : Conform w D) {C name c : Nat} (hr : Regular w D C name)
    (hf : FirstDecl w C name c) {k : Ann} {t U : Ty}
    (ha : (w.cls c).attrs name = some (.ann k t)) (hput : ∀ v, D c name = some v → ¬ HasSet w v)
    (h : (writeType w C name U t (annKind k)).1 = []) :
    compat w U (bind w c (.ann k t)).1 = true := by
  obtain ⟨-, h⟩ := writeType_compat h
  have fit := conform_some hc ha
  cases t with
  | any => exact h
  | union ds => exact h
  | cls d =>
    simp only at h
    unfold bind bindType
    simp only
    rcases h with ⟨S, hS, -⟩ | ⟨-, p, hp, h⟩ | ⟨-, hg, h⟩
    · exfalso
      cases hv : D c name with
      | none => exact fit.2 d rfl (Or.inr ⟨S, dunderSet_some.1 hS⟩) hv
      | some v =>
        obtain ⟨x, i, rfl, -, -, h2⟩ := fit.1 v hv
        exact hput _ hv (hasSet_cls h2 hS)
    · rw [hp]; exact h
    · rw [hg]; exact h
  | fn s =>
    obtain ⟨h1, h2, -⟩ := hr.callables c hf.mem k s ha
    simp only at h
    unfold bind bindType bindsSelf
    have : (k == Ann.classVar) = false := by simpa using h2
    simp only [h1, this]
    exact h.2

/-- An accepted assignment that changes the attributes of the object has the type for reading. -/
theorem write_sound {D : Dicts} (hc : Conform w D) {C name : Nat} (hr : Regular w D C name)
    {U T : Ty} (hd : Declared w C name) (hput : ∀ d, AtClass w D C name d → ¬ HasSet w d)
    (h : (write w C name U).1 = []) (hT : read w C name = some T) : compat w U T = true := by
  rcases situation hc hr hd with ⟨c, e, v, hf, ha, hv, hat, fit⟩ | ⟨c, k, t, hf, ha, -, hD, -⟩ |
    ⟨c, t, f, hf, ha, hs, hall, -, -, hnd⟩
  · rw [read_attr hf ha] at hT
    injection hT with hT
    subst hT
    have hput' := hput v hat
    have tgt := target_attr hf ha
    unfold write at h
    cases e with
    | method s =>
      rw [tgt] at h
      simp only [classTarget, bind] at h
      rw [if_neg (by simp [savedClassVar])] at h
      obtain ⟨-, h, -⟩ := writeType_compat h
      cases h
    | classm s =>
      rw [tgt] at h
      simp only [classTarget] at h
      rw [if_neg (by simp [savedClassVar])] at h
      obtain ⟨-, h, -⟩ := writeType_compat h
      cases h
    | static s =>
      rw [tgt] at h
      simp only [classTarget] at h
      rw [if_neg (by simp [savedClassVar])] at h
      obtain ⟨-, h, -⟩ := writeType_compat h
      cases h
    | prop r s =>
      rw [tgt] at h
      simp only [classTarget] at h
      cases s with
      | none => cases h
      | same => exact check_nil.1 h
      | other S =>
        injection fit with fit
        subst fit
        exact absurd trivial hput'
    | ann k t =>
      rw [tgt] at h
      simp only [classTarget] at h
      split at h
      · cases h
      · refine annCompat hc hr hf ha ?_ h
        intro v' hv'
        rw [hv] at hv'; injection hv' with hv'; subst hv'
        exact hput'
    | val t =>
      rw [tgt] at h
      cases t with
      | fn s =>
        simp only [classTarget, bind, bindType, valKind, bindsSelf, hr.firsts c hf.mem s ha,
          Bool.or_true, Bool.and_true, if_true] at h
        rw [if_neg (by simp [savedClassVar])] at h
        obtain ⟨-, h, -⟩ := writeType_compat h
        cases h
      | any => cases U <;> rfl
      | union ds =>
        simp only [classTarget] at h
        rw [if_neg (by simp [savedClassVar])] at h
        exact (writeType_compat h).2
      | cls d =>
        simp only [classTarget] at h
        rw [if_neg (by simp [savedClassVar])] at h
        have h := (writeType_compat h).2
        unfold bind bindType
        simp only at h ⊢
        rcases h with ⟨S, hS, -⟩ | ⟨-, p, hp, h⟩ | ⟨-, hg, h⟩
        · exfalso
          obtain ⟨u, hu, x, i, rfl, -, -, h2⟩ := fit
          injection hu with hu
          subst hu
          exact hput' (hasSet_cls h2 hS)
        · rw [hp]; exact h
        · rw [hg]; exact h
  · rw [read_attr hf ha] at hT
    injection hT with hT
    subst hT
    have tgt := target_attr hf ha
    unfold write at h
    rw [tgt] at h
    simp only [classTarget] at h
    split at h
    · cases h
    · refine annCompat hc hr hf ha ?_ h
      intro v' hv'
      rw [hD c hf.mem] at hv'; cases hv'
  · rw [read_self hf ha hs] at hT
    injection hT with hT
    subst hT
    unfold write at h
    rw [target_self hf ha hs hall] at h
    simp only at h
    rw [if_neg (by cases f <;> simp [savedClassVar])] at h
    · obtain ⟨-, h⟩ := writeType_compat h
      cases t with
      | any => exact h
      | union ds => exact h
      | fn s => exact h.2
      | cls d =>
        simp only at h
        obtain ⟨h1, h2⟩ := notDescr (hnd d rfl)
        rw [h1, h2] at h
        rcases h with ⟨S, hS, -⟩ | ⟨-, p, hp, -⟩ | ⟨-, -, h⟩
        · cases hS
        · cases hp
        · exact h

/-- What is true of the attributes of an object after accepted assignments. -/
def Inv (w : World) (C : Nat) (st : Store) (name : Nat) : Prop :=
  (¬ Declared w C name → (w.cls C).incomplete = false → st name = none) ∧
    ∀ T, read w C name = some T → Declared w C name → ∀ v, st name = some v → Has w v T

theorem firstIn_hook {α : Type} {f : Class → Option α} {C : Nat}
    (h : ∀ a, ¬ Hook w f C a) : firstIn w f (w.cls C).mro = none := by
  cases h' : firstIn w f (w.cls C).mro with
  | none => rfl
  | some r => exact absurd ⟨r.1, firstIn_some.1 h'⟩ (h r.2)

theorem write_undeclared {C name : Nat} {U : Ty} (h : ¬ Declared w C name)
    (hi : (w.cls C).incomplete = false) (hs : ∀ S, ¬ Hook w (·.setattr) C S) :
    (write w C name U).1 = [.noAttribute] := by
  unfold write
  rw [target_undeclared h hi, firstIn_hook hs]

/-- The changes an assignment may do. -/
theorem writes_cases {D : Dicts} {C name : Nat} {v : Val} {st st' : Store}
    (h : Writes w D C st name v st') : st' = st ∨ (st' = st.put name v ∧
      (∀ S, ¬ Hook w (·.setattr) C S) ∧ ∀ d, AtClass w D C name d → ¬ HasSet w d) := by
  cases h with
  | setattr => exact Or.inl rfl
  | data => exact Or.inl rfl
  | slot h1 h2 => exact Or.inr ⟨rfl, h1, fun d hd => (atClass_atSlot hd h2).elim⟩
  | own h1 h2 => exact Or.inr ⟨rfl, h1, fun d hd => (atClass_nowhere hd h2).elim⟩
  | over h1 h2 h3 => exact Or.inr ⟨rfl, h1, fun d hd => by rw [atClass_unique hd h2]; exact h3⟩

theorem undeclared_kept {D : Dicts} {C name : Nat} {st : Store} (hR : Runs w D C st)
    (h : ¬ Declared w C name) (hi : (w.cls C).incomplete = false) : st name = none := by
  induction hR with
  | fresh => rfl
  | @step st st' n v U _ _ _ hw hwr ih =>
    rcases writes_cases hwr with rfl | ⟨rfl, hs, -⟩
    · exact ih
    · unfold Store.put
      by_cases e : name = n
      · subst e
        rw [write_undeclared h hi hs] at hw
        cases hw
      · rw [if_neg e]; exact ih

theorem runs_typed {D : Dicts} (hc : Conform w D) (ho : Ordered w) {C name : Nat}
    (hr : Regular w D C name) {st : Store} (hR : Runs w D C st) {T : Ty}
    (hT : read w C name = some T) (hd : Declared w C name) {v : Val} (hv : st name = some v) :
    Has w v T := by
  induction hR with
  | fresh => cases hv
  | @step st st' n u U _ hu hU hw hwr ih =>
    rcases writes_cases hwr with rfl | ⟨rfl, hs, hput⟩
    · exact ih hv
    · unfold Store.put at hv
      by_cases e : name = n
      · subst e
        rw [if_pos rfl] at hv
        injection hv with hv
        subst hv
        exact compat_sound ho hU hu (write_sound hc hr hd hput hw hT)
      · rw [if_neg e] at hv; exact ih hv

theorem holds_has {v : Val} {t : Ty} (h : Holds w v t) : Has w v t := by
  cases t with
  | any => trivial
  | cls d => obtain ⟨c, i, rfl, h, -⟩ := h; exact ⟨c, rfl, h⟩
  | union ds => obtain ⟨c, i, rfl, d, hd, h, -⟩ := h; exact ⟨c, rfl, d, hd, h⟩
  | fn s => exact h

/-- What a value at a class gives for an instance: the result of `__get__` or the value. -/
def Shows (w : World) (v u : Val) : Prop :=
  (HasGet w v ∧ Gives w v u) ∨ (¬ HasGet w v ∧ u = v)

theorem shows_cls {v u : Val} {d : Nat} (h : Holds w v (.cls d)) (hs : Shows w v u) (all : Bool)
    (c : Nat) : Has w u (bindType w all c (.cls d)) := by
  obtain ⟨x, i, rfl, hsub, hg, -⟩ := id h
  unfold bindType
  simp only
  rcases hs with ⟨⟨p, hp⟩, hgv⟩ | ⟨hn, rfl⟩
  · cases hgv with
    | @obj _ _ p' _ h1 h2 =>
      rw [dunderGet_some.2 ((hg p').1 h1)]
      exact h2
  · rw [dunderGet_none.2 fun p hp => hn ⟨p, (hg p).2 hp⟩]
    exact holds_has h

theorem shows_union {v u : Val} {ds : List Nat} (h : Holds w v (.union ds)) (hs : Shows w v u)
    (hd : ∀ d ∈ ds, ¬ IsDescr w d) : Has w u (.union ds) := by
  obtain ⟨x, i, rfl, d, hd', hsub, hg, -⟩ := id h
  rcases hs with ⟨⟨p, hp⟩, -⟩ | ⟨hn, rfl⟩
  · exact absurd (Or.inl ⟨p, (hg p).1 hp⟩) (hd d hd')
  · exact holds_has h

theorem class_typed {D : Dicts} {C name c : Nat} (hr : Regular w D C name) {e : Entry} {v u : Val}
    (hc : c ∈ (w.cls C).mro) (ha : (w.cls c).attrs name = some e) (hv : D c name = some v)
    (fit : FitsEntry w (some v) e) (hs : Shows w v u) : Has w u (bind w c e).1 := by
  cases e with
  | method s =>
    injection fit with fit; subst fit
    rcases hs with ⟨-, h⟩ | ⟨h, -⟩
    · cases h; exact Or.inr rfl
    · exact absurd trivial h
  | classm s =>
    injection fit with fit; subst fit
    rcases hs with ⟨-, h⟩ | ⟨h, -⟩
    · cases h; exact Or.inr rfl
    · exact absurd trivial h
  | static s =>
    injection fit with fit; subst fit
    rcases hs with ⟨-, h⟩ | ⟨h, -⟩
    · cases h; exact Or.inl rfl
    · exact absurd trivial h
  | prop r s =>
    have : v = .cached r ∨ v = .property r s := by
      cases s with
      | same => injection fit with fit; exact Or.inl fit
      | none => injection fit with fit; exact Or.inr fit
      | other S => injection fit with fit; exact Or.inr fit
    rcases this with rfl | rfl
    · rcases hs with ⟨-, h⟩ | ⟨h, -⟩
      · cases h with | cached h => exact h
      · exact absurd trivial h
    · rcases hs with ⟨-, h⟩ | ⟨h, -⟩
      · cases h with | property h => exact h
      · exact absurd trivial h
  | ann k t =>
    have hh := fit.1 v rfl
    cases t with
    | any => trivial
    | union ds => exact shows_union hh hs (hr.unions c hc k ds (Or.inl ha))
    | cls d => exact shows_cls hh hs (k == .classVar) c
    | fn s =>
      obtain ⟨h1, h2, h3⟩ := hr.callables c hc k s ha
      have h2 : (k == Ann.classVar) = false := by simpa using h2
      unfold bind bindType bindsSelf
      simp only [h1, h2]
      rcases hh with rfl | rfl
      · exact absurd hv (h3 s)
      · rcases hs with ⟨h, -⟩ | ⟨-, rfl⟩
        · exact absurd h id
        · exact Or.inr rfl
  | val t =>
    cases t with
    | any => trivial
    | union ds =>
      obtain ⟨u', hu, hh⟩ := fit
      injection hu with hu; subst hu
      exact shows_union hh hs (hr.unions c hc .plain ds (Or.inr ha))
    | cls d =>
      obtain ⟨u', hu, hh⟩ := fit
      injection hu with hu; subst hu
      exact shows_cls hh hs true c
    | fn s =>
      injection fit with fit; subst fit
      unfold bind bindType bindsSelf
      simp only [hr.firsts c hc s ha, Bool.or_true, Bool.and_true, if_true]
      rcases hs with ⟨-, h⟩ | ⟨h, -⟩
      · cases h; exact Or.inr rfl
      · exact absurd trivial h

theorem undeclared_values {D : Dicts} (hc : Conform w D) {C name : Nat}
    (h : ¬ Declared w C name) : ∀ x ∈ (w.cls C).mro, D x name = none :=
  fun x hx => conform_none hc (undeclared h x hx).1

theorem read_undeclared {C name : Nat} (h : ¬ Declared w C name) :
    read w C name = match firstIn w (·.getattr) (w.cls C).mro with
      | some r => some r.2
      | none =>
        match firstIn w (·.getattribute) (w.cls C).mro with
        | some r => some r.2
        | none => if (w.cls C).incomplete then some .any else none := by
  unfold read lookup
  rw [walk_undeclared h]
  simp only [if_true]
  cases firstIn w (·.getattr) (w.cls C).mro with
  | some r => rfl
  | none =>
    cases firstIn w (·.getattribute) (w.cls C).mro with
    | some r => rfl
    | none =>
      simp only
      split <;> rfl

theorem hook_firstIn {α : Type} {f : Class → Option α} {C : Nat} {a : α} (h : Hook w f C a) :
    ∃ c, firstIn w f (w.cls C).mro = some (c, a) := by
  obtain ⟨c, h⟩ := h
  exact ⟨c, firstIn_some.2 h⟩

theorem room {C name : Nat} {cs : List Nat} (h : slotsOk w name cs = true)
    (hcs : ∀ c ∈ cs, c ∈ (w.cls C).mro)
    (hn : ∀ c ∈ cs, ∀ e, (w.cls c).attrs name = some e → e.isFunc = false) :
    HasDict w C ∨ (∃ c ∈ (w.cls C).mro, ∃ ss, (w.cls c).slots = some ss ∧ name ∈ ss) ∨
      ∃ c ∈ (w.cls C).mro, (w.cls c).setattr ≠ none := by
  induction cs with
  | nil => cases h
  | cons x xs ih =>
    have hx := hcs x (by simp)
    rw [slotsOk] at h
    cases hs : (w.cls x).slots with
    | none => exact Or.inl ⟨x, hx, Or.inl hs⟩
    | some ss =>
      rw [hs] at h
      simp only [Bool.or_eq_true] at h
      rcases h with (((h | h) | h) | h) | h
      · exact Or.inr (Or.inl ⟨x, hx, ss, hs, by simpa using h⟩)
      · exact Or.inl ⟨x, hx, Or.inr h⟩
      · cases ha : (w.cls x).attrs name with
        | none => rw [ha] at h; cases h
        | some e => rw [ha] at h; simp only [hn x (by simp) e ha] at h; cases h
      · exact Or.inr (Or.inr ⟨x, hx, by intro e; rw [e] at h; cases h⟩)
      · exact ih h (fun c hc => hcs c (by simp [hc])) fun c hc => hn c (by simp [hc])

theorem hook_of {α : Type} {f : Class → Option α} {C c : Nat} (hc : c ∈ (w.cls C).mro)
    (h : f (w.cls c) ≠ none) : ∃ a, Hook w f C a := by
  rcases lacks_or_finds (fun c => f (w.cls c)) (w.cls C).mro with h' | ⟨c, a, h'⟩
  · exact absurd (h' c hc) h
  · exact ⟨a, c, h'⟩

theorem shows_class {v u : Val} {d : Nat} (h : Holds w v (.cls d))
    (hs : (HasGet w v ∧ GivesClass w v u) ∨ (¬ HasGet w v ∧ u = v)) :
    Has w u (classBindType w (.cls d)) := by
  obtain ⟨x, i, rfl, hsub, hg, -⟩ := id h
  unfold classBindType
  simp only
  rcases hs with ⟨⟨p, hp⟩, hgv⟩ | ⟨hn, rfl⟩
  · cases hgv with
    | @obj _ _ p' _ h1 h2 =>
      rw [dunderGet_some.2 ((hg p').1 h1)]
      exact h2
  · rw [dunderGet_none.2 fun p hp => hn ⟨p, (hg p).2 hp⟩]
    exact holds_has h

theorem class_class_typed (ho : Ordered w) {name c : Nat} {e : Entry} {v u : Val}
    (fit : FitsEntry w (some v) e) (hnc : ∀ r, e ≠ .prop r .same)
    (hu : ∀ k ds, e = .ann k (.union ds) ∨ e = .val (.union ds) → ∀ d ∈ ds, ¬ IsDescr w d)
    (hs : (HasGet w v ∧ GivesClass w v u) ∨ (¬ HasGet w v ∧ u = v)) :
    Has w u (classBind w e).1 := by
  cases e with
  | method s =>
    injection fit with fit; subst fit
    rcases hs with ⟨-, h⟩ | ⟨h, -⟩
    · cases h; exact Or.inl rfl
    · exact absurd trivial h
  | classm s =>
    injection fit with fit; subst fit
    rcases hs with ⟨-, h⟩ | ⟨h, -⟩
    · cases h; exact Or.inr rfl
    · exact absurd trivial h
  | static s =>
    injection fit with fit; subst fit
    rcases hs with ⟨-, h⟩ | ⟨h, -⟩
    · cases h; exact Or.inl rfl
    · exact absurd trivial h
  | prop r s =>
    have : v = .property r s := by
      cases s with
      | same => exact absurd rfl (hnc r)
      | none => injection fit with fit
      | other S => injection fit with fit
    subst this
    rcases hs with ⟨-, h⟩ | ⟨h, -⟩
    · cases h; exact ⟨w.property, rfl, ho.1 _⟩
    · exact absurd trivial h
  | ann k t =>
    have hh := fit.1 v rfl
    cases t with
    | any => trivial
    | union ds =>
      obtain ⟨x, i, rfl, d, hd', hsub, hg, -⟩ := id hh
      rcases hs with ⟨⟨p, hp⟩, -⟩ | ⟨hn, rfl⟩
      · exact absurd (Or.inl ⟨p, (hg p).1 hp⟩) (hu k ds (Or.inl rfl) d hd')
      · exact holds_has hh
    | cls d => exact shows_class hh hs
    | fn s =>
      rcases hh with rfl | rfl
      · rcases hs with ⟨-, h⟩ | ⟨h, -⟩
        · cases h; exact Or.inl rfl
        · exact absurd trivial h
      · rcases hs with ⟨h, -⟩ | ⟨-, rfl⟩
        · exact absurd h id
        · exact Or.inr rfl
  | val t =>
    cases t with
    | any => trivial
    | union ds =>
      obtain ⟨u', hu', hh⟩ := fit
      injection hu' with hu'; subst hu'
      obtain ⟨x, i, rfl, d, hd', hsub, hg, -⟩ := id hh
      rcases hs with ⟨⟨p, hp⟩, -⟩ | ⟨hn, rfl⟩
      · exact absurd (Or.inl ⟨p, (hg p).1 hp⟩) (hu .plain ds (Or.inr rfl) d hd')
      · exact holds_has hh
    | cls d =>
      obtain ⟨u', hu', hh⟩ := fit
      injection hu' with hu'; subst hu'
      exact shows_class hh hs
    | fn s =>
      injection fit with fit; subst fit
      rcases hs with ⟨-, h⟩ | ⟨h, -⟩
      · cases h; exact Or.inl rfl
      · exact absurd trivial h

theorem bind_iff {c : Nat} {e : Entry} {T : Ty} : (bind w c e).1 = T ↔ EntryType w c e T := by
  constructor
  · rintro rfl
    cases e with
    | method s => exact .method
    | prop r s => exact .prop
    | classm s => exact .classm
    | static s => exact .static
    | ann k t =>
      cases t with
      | any => exact .any (Or.inl rfl)
      | union ds => exact .union (Or.inl rfl)
      | cls d =>
        unfold bind bindType
        simp only
        cases h : dunderGet w d with
        | none => exact .plain (Or.inl rfl) (dunderGet_none.1 h)
        | some p => exact .descr (Or.inl rfl) (dunderGet_some.1 h)
      | fn s =>
        unfold bind bindType bindsSelf
        simp only
        cases hf : w.first s with
        | false => simp only [Bool.and_false]; exact .unbound (Or.inl hf)
        | true =>
          by_cases hk : k = .classVar
          · subst hk
            simpa using EntryType.classVar hf
          · have hk' : (k == Ann.classVar) = false := by simpa using hk
            rw [hk']
            cases hm : w.mypy with
            | true => exact .unbound (Or.inr ⟨hk, Or.inl hm⟩)
            | false =>
              cases hp : w.paramSpec s with
              | true => exact .unbound (Or.inr ⟨hk, Or.inr (Or.inl hp)⟩)
              | false =>
                cases hd : (w.cls c).isDataclass with
                | true => exact .unbound (Or.inr ⟨hk, Or.inr (Or.inr hd)⟩)
                | false => exact .bound hf hm hp hd
    | val t =>
      cases t with
      | any => exact .any (k := .plain) (Or.inr rfl)
      | union ds => exact .union (k := .plain) (Or.inr rfl)
      | cls d =>
        unfold bind bindType
        simp only
        cases h : dunderGet w d with
        | none => exact .plain (k := .plain) (Or.inr rfl) (dunderGet_none.1 h)
        | some p => exact .descr (k := .plain) (Or.inr rfl) (dunderGet_some.1 h)
      | fn s =>
        unfold bind bindType bindsSelf
        simp only
        cases hf : w.first s with
        | false => simp only [Bool.and_false]; exact .notFirst hf
        | true => simpa using EntryType.function hf
  · intro h
    cases h with
    | method => rfl
    | prop => rfl
    | classm => rfl
    | static => rfl
    | function h => simp [bind, bindType, bindsSelf, h]
    | notFirst h => simp [bind, bindType, bindsSelf, h]
    | classVar h => simp [bind, bindType, bindsSelf, h]
    | bound h1 h2 h3 h4 => simp [bind, bindType, bindsSelf, h1, h2, h3, h4]
    | @unbound k s h =>
      unfold bind bindType bindsSelf
      simp only
      rcases h with h | ⟨hk, h⟩
      · simp [h]
      · have hk' : (k == Ann.classVar) = false := by simpa using hk
        rw [hk']
        rcases h with h | h | h <;> simp [h]
    | descr he h =>
      rcases he with rfl | rfl <;> simp only [bind, bindType, dunderGet_some.2 h]
    | plain he h =>
      rcases he with rfl | rfl <;> simp only [bind, bindType, dunderGet_none.2 h]
    | any he => rcases he with rfl | rfl <;> rfl
    | union he => rcases he with rfl | rfl <;> rfl

theorem slots_room {C name : Nat} {cs : List Nat} (h : slotsOk w name cs = false) :
    ∀ c ∈ cs, (w.cls c).setattr = none ∧ (w.cls c).dictSlot = false ∧
      ∃ ss, (w.cls c).slots = some ss ∧ name ∉ ss := by
  induction cs with
  | nil => simp
  | cons x xs ih =>
    rw [slotsOk] at h
    cases hs : (w.cls x).slots with
    | none => rw [hs] at h; cases h
    | some ss =>
      rw [hs] at h
      simp only [Bool.or_eq_false_iff] at h
      obtain ⟨⟨⟨⟨h1, h2⟩, -⟩, h4⟩, h5⟩ := h
      intro c hc
      rcases List.mem_cons.1 hc with rfl | hc
      · refine ⟨?_, h2, ss, hs, by simpa using h1⟩
        cases ha : (w.cls c).setattr with
        | none => rfl
        | some a => rw [ha] at h4; cases h4
      · exact ih h5 c hc

theorem slots_reason {C name : Nat} {U : Ty} (h : slotsOk w name (w.cls C).mro = false) :
    Reason w C name U .slots := by
  have := slots_room (C := C) h
  refine ⟨?_, ?_, ?_⟩
  · rintro ⟨c, hc, h' | h'⟩
    · obtain ⟨-, -, ss, hs, -⟩ := this c hc; rw [hs] at h'; cases h'
    · rw [(this c hc).2.1] at h'; cases h'
  · rintro S ⟨c, h'⟩
    obtain ⟨hm, he⟩ := h'.mem
    dsimp only at he
    rw [(this c hm).1] at he; cases he
  · intro c hc ss hs
    obtain ⟨-, -, ss', hs', hn⟩ := this c hc
    rw [hs] at hs'; injection hs' with hs'; subst hs'
    exact hn

theorem check_mem {U T : Ty} {i : Issue} (h : i ∈ check w U T) :
    i = .incompatible ∧ compat w U T = false := by
  unfold check at h
  cases hc : compat w U T with
  | true => rw [hc] at h; simp at h
  | false => rw [hc] at h; simp at h; exact ⟨h, rfl⟩

theorem rest_mem {C name : Nat} {U t : Ty} {i : Issue} (h : i ∈ writeRest w C name U t) :
    (i = .slots ∧ Reason w C name U .slots) ∨ (i = .incompatible ∧ compat w U t = false) := by
  unfold writeRest at h
  rcases List.mem_append.1 h with h | h
  · split at h
    · cases h
    · split at h
      · cases h
      · next hs =>
        simp at h
        exact Or.inl ⟨h, slots_reason (by simpa using hs)⟩
  · exact Or.inr (check_mem h)

theorem type_mem {C name : Nat} {U t : Ty} {k : Kind} {i : Issue} (hs : Slot w C name t)
    (h : i ∈ (writeType w C name U t k).1) :
    (i = .final ∧ k = .final) ∨ (i = .method ∧ k.overwritable = false ∧ ∃ s, t = .fn s) ∨
      ((i = .slots ∨ i = .incompatible) ∧ Reason w C name U i) := by
  have fin : ∀ i : Issue, i ∈ (if k == Kind.final then [Issue.final] else []) →
      i = .final ∧ k = .final := by
    intro i hi
    split at hi
    · next hk => simp at hi; exact ⟨hi, by simpa using hk⟩
    · cases hi
  have rest : (∀ d, t = .cls d → ¬ IsDescr w d) → i ∈ writeRest w C name U t →
      ((i = .slots ∨ i = .incompatible) ∧ Reason w C name U i) := by
    intro hd hi
    rcases rest_mem hi with ⟨rfl, hr⟩ | ⟨rfl, hr⟩
    · exact ⟨Or.inl rfl, hr⟩
    · exact ⟨Or.inr rfl, t, .plain hs hd, hr⟩
  unfold writeType at h
  cases t with
  | cls d =>
    simp only at h
    cases h1 : dunderSet w d with
    | some S =>
      rw [h1] at h
      rcases List.mem_append.1 h with h | h
      · exact Or.inl (fin i h)
      · obtain ⟨rfl, hc⟩ := check_mem h
        exact Or.inr (Or.inr ⟨Or.inr rfl, S, .set hs (dunderSet_some.1 h1), hc⟩)
    | none =>
      rw [h1] at h
      cases h2 : dunderGet w d with
      | some p =>
        rw [h2] at h
        rcases List.mem_append.1 h with h | h
        · exact Or.inl (fin i h)
        · obtain ⟨rfl, hc⟩ := check_mem h
          exact Or.inr (Or.inr ⟨Or.inr rfl, p.1,
            .get hs (dunderSet_none.1 h1) (dunderGet_some.1 h2), hc⟩)
      | none =>
        rw [h2] at h
        rcases List.mem_append.1 h with h | h
        · exact Or.inl (fin i h)
        · refine Or.inr (Or.inr (rest ?_ h))
          rintro d' ⟨rfl⟩ (⟨p, hp⟩ | ⟨S, hS⟩)
          · exact dunderGet_none.1 h2 p hp
          · exact dunderSet_none.1 h1 S hS
  | any =>
    simp only at h
    rcases List.mem_append.1 h with h | h
    · rcases List.mem_append.1 h with h | h
      · exact Or.inl (fin i h)
      · cases h
    · exact Or.inr (Or.inr (rest (fun _ h => nomatch h) h))
  | union ds =>
    simp only at h
    rcases List.mem_append.1 h with h | h
    · rcases List.mem_append.1 h with h | h
      · exact Or.inl (fin i h)
      · cases h
    · exact Or.inr (Or.inr (rest (fun _ h => nomatch h) h))
  | fn s =>
    simp only at h
    rcases List.mem_append.1 h with h | h
    · rcases List.mem_append.1 h with h | h
      · exact Or.inl (fin i h)
      · unfold methodIssue at h
        simp only at h
        split at h
        · cases h
        · next hk => simp at h; exact Or.inr (Or.inl ⟨h, by simpa using hk, s, rfl⟩)
    · exact Or.inr (Or.inr (rest (fun _ h => nomatch h) h))

/-! ## Refused assignments -/

theorem target_body {C name c : Nat} {e : Entry} (h : FirstBody w C name c e) {r : Target × Kind}
    (hr : classTarget w e = some r) : target w C name = some r := by
  unfold target
  rw [(firstIn_some (f := fun c => c.attrs name)).2 h]
  simp only [hr]

theorem target_own {C name : Nat} (h : ∀ c e, FirstBody w C name c e → IsFunction e) :
    target w C name = (lookup w false C name).map fun r => (Target.ty r.1, r.2) := by
  unfold target
  cases hb : firstIn w (fun c => c.attrs name) (w.cls C).mro with
  | none => rfl
  | some p =>
    obtain ⟨c, e⟩ := p
    obtain ⟨s, rfl | rfl⟩ := h c e (firstIn_some.1 hb) <;> rfl

/-- The declared type is what the assignment is checked against. -/
theorem slot_target {C name : Nat} {t : Ty} (h : Slot w C name t) :
    ∃ k, target w C name = some (.ty t, k) ∧
      (k = .classVar → ∃ c, FirstBody w C name c (.ann .classVar t)) := by
  cases h with
  | @ann c k t h =>
    refine ⟨annKind k, target_body h rfl, ?_⟩
    intro hk
    cases k <;> cases hk
    exact ⟨c, h⟩
  | val h hn =>
    refine ⟨.attribute, target_body h ?_, nofun⟩
    cases t <;> first | rfl | exact absurd rfl (hn _)
  | classm h => exact ⟨.classm, target_body h rfl, nofun⟩
  | static h => exact ⟨.static, target_body h rfl, nofun⟩
  | @function c e c' e' _ h hf hd ha hT =>
    have hb : FirstBody w C name c' e' := firstIn_some.1 (firstIn_attr hd ha)
    have all : ∀ c e, FirstBody w C name c e → IsFunction e := by
      intro c'' e'' h'
      rw [(finds_unique h' h).2]; exact hf
    refine ⟨(bind w c' e').2, ?_, ?_⟩
    · rw [target_own all, lookup_of_walk (walk_attr hd ha)]
      rw [← bind_iff.2 hT]; rfl
    · intro hk
      obtain ⟨s, rfl | rfl⟩ := all c' e' hb
      · cases hk
      · unfold bind valKind at hk; simp only at hk; split at hk <;> cases hk
  | @self c t f hall hd ha hs =>
    refine ⟨if f then .final else .attribute, ?_, by cases f <;> simp⟩
    rw [target_own hall, lookup_of_walk (walk_self hd ha hs)]; rfl
  | unknown hd hi =>
    refine ⟨.attribute, ?_, nofun⟩
    rw [target_own]
    · unfold lookup; rw [walk_undeclared hd]; simp [hi]
    · rintro c e h
      exact absurd ⟨c, h.mem.1, Or.inl (by rw [h.mem.2]; nofun)⟩ hd

theorem check_false {U S : Ty} (h : compat w U S = false) : check w U S = [.incompatible] := by
  unfold check; rw [h]; rfl

theorem slotsOk_false {name : Nat} {cs : List Nat}
    (h1 : ∀ c ∈ cs, ∃ ss, (w.cls c).slots = some ss ∧ name ∉ ss)
    (h2 : ∀ c ∈ cs, (w.cls c).dictSlot = false) (h3 : ∀ c ∈ cs, (w.cls c).setattr = none)
    (h4 : ∀ c ∈ cs, ∀ e, (w.cls c).attrs name = some e →
      ∃ k d, (e = .ann k d ∨ e = .val d) ∧ ∀ s, d ≠ .fn s) :
    slotsOk w name cs = false := by
  induction cs with
  | nil => rfl
  | cons c cs ih =>
    unfold slotsOk
    obtain ⟨ss, hs, hn⟩ := h1 c (by simp)
    rw [hs]
    simp only [h2 c (by simp), h3 c (by simp), Option.isSome_none, Bool.or_false,
      Bool.or_eq_false_iff]
    refine ⟨⟨by simpa using hn, ?_⟩, ih (fun c hc => h1 c (by simp [hc]))
      (fun c hc => h2 c (by simp [hc])) (fun c hc => h3 c (by simp [hc]))
      (fun c hc => h4 c (by simp [hc]))⟩
    cases ha : (w.cls c).attrs name with
    | none => rfl
    | some e =>
      obtain ⟨k, d, hd, hf⟩ := h4 c (by simp) e ha
      rcases hd with rfl | rfl <;> cases d <;> first | rfl | exact absurd rfl (hf _)

theorem method_mem {C name : Nat} {U : Ty} {k : Kind} {s : Nat} (h : k.overwritable = false) :
    Issue.method ∈ (writeType w C name U (.fn s) k).1 := by
  unfold writeType methodIssue
  simp [h]

/-! ## Helpers for examples -/

/-- A line of a program: a class, a name, what it is and its value. -/
abbrev Row := Nat × Nat × Entry × Option Val

/-- The first line for a name of a class. -/
def rowOf (rows : List Row) (c name : Nat) : Option (Entry × Option Val) :=
  match rows with
  | [] => none
  | (c', n, e, v) :: rs => if c' = c ∧ n = name then some (e, v) else rowOf rs c name

/-- The world of a program, without `attrs` of the classes. -/
def program (rows : List Row) (classes : Nat → Class) (mypy : Bool) : World where
  cls c := { classes c with attrs := fun n => (rowOf rows c n).map (·.1) }
  strip s := s + 1
  first _ := true
  paramSpec _ := false
  property := 99
  mypy := mypy

/-- The dictionaries of a program. -/
def dicts (rows : List Row) : Dicts := fun c n => (rowOf rows c n).bind (·.2)

theorem conform_program {rows : List Row} {classes : Nat → Class} {mypy : Bool}
    (h : ∀ r ∈ rows, FitsEntry (program rows classes mypy) r.2.2.2 r.2.2.1) :
    Conform (program rows classes mypy) (dicts rows) := by
  have key : ∀ rs : List Row, (∀ r ∈ rs, FitsEntry (program rows classes mypy) r.2.2.2 r.2.2.1) →
      ∀ c n, match (rowOf rs c n).map (·.1) with
        | some e => FitsEntry (program rows classes mypy) ((rowOf rs c n).bind (·.2)) e
        | none => (rowOf rs c n).bind (·.2) = none := by
    intro rs
    induction rs with
    | nil => intro _ c n; rfl
    | cons r rs ih =>
      intro hr c n
      obtain ⟨c', n', e, v⟩ := r
      rw [rowOf]
      by_cases hc : c' = c ∧ n' = n
      · rw [if_pos hc]
        exact hr (c', n', e, v) (by simp)
      · rw [if_neg hc]
        exact ih (fun r hr' => hr r (by simp [hr'])) c n
  exact fun c n => key rows h c n

theorem atClass_self {D : Dicts} {C name : Nat} {d : Val} {r : List Nat}
    (h : (w.cls C).mro = C :: r) (hc : D C name = some d) : AtClass w D C name d :=
  ⟨C, [], r, h, by unfold cell; rw [hc], by simp⟩

theorem nowhere_self {D : Dicts} {C name : Nat} (h : (w.cls C).mro = [C])
    (hc : cell w D name C = none) : Nowhere w D C name := by
  intro x hx
  rw [h] at hx
  rw [List.mem_singleton.1 hx]; exact hc

theorem noGet {c i : Nat} (h : dunderGet w c = none) : ¬ HasGet w (.obj c i) := by
  rintro ⟨p, hp⟩; exact dunderGet_none.1 h p hp

theorem noSet {c i : Nat} (h : dunderSet w c = none) : ¬ HasSet w (.obj c i) := by
  rintro ⟨p, hp⟩; exact dunderSet_none.1 h p hp

theorem noHook {α : Type} {f : Class → Option α} {C : Nat}
    (h : firstIn w f (w.cls C).mro = none) (a : α) : ¬ Hook w f C a := by
  rintro ⟨c, hc⟩; rw [firstIn_some.2 hc] at h; cases h

theorem hasDict_self {C : Nat} {r : List Nat} (h : (w.cls C).mro = C :: r)
    (hs : (w.cls C).slots = none) : HasDict w C := ⟨C, by rw [h]; simp, Or.inl hs⟩

theorem holds_same {c i : Nat} (h : IsSub w c c) : Holds w (.obj c i) (.cls c) :=
  ⟨c, i, rfl, h, fun _ => Iff.rfl, fun _ => Iff.rfl⟩

theorem notDescr_of {d : Nat} (h : dunderGet w d = none) (h' : dunderSet w d = none) :
    ¬ IsDescr w d := by
  rintro (⟨p, hp⟩ | ⟨S, hS⟩)
  · exact dunderGet_none.1 h p hp
  · exact dunderSet_none.1 h' S hS

theorem not_has_cls {c i d : Nat} (h : d ∉ (w.cls c).mro) : ¬ Has w (.obj c i) (.cls d) := by
  rintro ⟨x, hx, hs⟩
  injection hx with hx; subst hx
  exact h hs

end Verif.Attribute
