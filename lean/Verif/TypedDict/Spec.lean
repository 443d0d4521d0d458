import Verif.TypedDict.Model

/-! # What is expected of typed dictionaries

A dictionary at run time fits a typed dict if it has the required keys and all values have the
types that are declared.  Several expressions with different types can have the same dictionary as
their value; what is done through one of them must leave the dictionary right for all of them. -/

namespace Verif.TypedDict

variable {T V : Type}

/-- The values of the types.  Only what is true of a sound type checker is assumed: comparisons are
right if they succeed, and the other operations have their values. -/
structure Means (o : Ops T) (has : T → V → Prop) : Prop where
  sub : ∀ {a b v}, o.sub a b = true → has b v → has a v
  same : ∀ {a b v}, o.same a b = true → (has a v ↔ has b v)
  never : ∀ {t v}, o.isNever t = true → ¬ has t v
  bottom : ∀ {v}, ¬ has o.never v
  union : ∀ {a b v}, has a v ∨ has b v → has (o.union a b) v
  object : ∀ {v}, has o.object v

/-- A dictionary. -/
abbrev Dict (V : Type) := String → Option V

/-- The dictionary is a value of the typed dict. -/
structure Fits (has : T → V → Prop) (td : TD T) (d : Dict V) : Prop where
  required : ∀ m ∈ td.named, m.required = true → d m.name ≠ none
  named : ∀ m ∈ td.named, ∀ v, d m.name = some v → has m.ty v
  extra : ∀ e, td.extra = some e → ∀ k v, (∀ m ∈ td.named, m.name ≠ k) → d k = some v → has e.ty v

/-- The same for all types. -/
def FitsView (has : T → V → Prop) : View T → Dict V → Prop
  | .td td, d => Fits has td d
  | .dict t, d => ∀ k v, d k = some v → has t v
  | .mapping t, d => ∀ k v, d k = some v → has t v

/-- The strings that a key of this type can be. -/
def Key.has : Key → String → Prop
  | .lits k ks, x => x ∈ k :: ks
  | .str, _ => True

/-- `d[k] = v`. -/
def Dict.put (d : Dict V) (k : String) (v : V) : Dict V := fun x => if x = k then some v else d x

/-- `del d[k]`. -/
def Dict.remove (d : Dict V) (k : String) : Dict V := fun x => if x = k then none else d x

/-- What an action does with the dictionary at run time. -/
inductive Runs (has : T → V → Prop) (d : Dict V) : Action T → Dict V → Prop where
  | set {key k ty v} : key.has k → has ty v → Runs has d (.set key ty) (d.put k v)
  | delete {key k} : key.has k → Runs has d (.delete key) (d.remove k)
  | keep {key k ty} : key.has k → d k ≠ none → Runs has d (.setDefault key ty) d
  | default {key k ty v} : key.has k → d k = none → has ty v →
    Runs has d (.setDefault key ty) (d.put k v)
  | popItem {k} : Runs has d .popItem (d.remove k)
  | clear : Runs has d .clear fun _ => none
  | update {arg u} : Fits has arg u → Runs has d (.update arg) fun k => (u k).or (d k)

/-- The types through which a dictionary can be seen, and the dictionary, after any number of casts
and actions.  `Cast a b` says that `b` can be used as `a`, `Act a x` that `x` can be done with `a`. -/
inductive Reach (has : T → V → Prop) (Cast : View T → View T → Prop)
    (Act : View T → Action T → Prop) (root : View T) : List (View T) → Dict V → Prop where
  | start {d} : FitsView has root d → Reach has Cast Act root [root] d
  | cast {vs d a b} : Reach has Cast Act root vs d → b ∈ vs → Cast a b →
    Reach has Cast Act root (a :: vs) d
  | act {vs d d' a x} : Reach has Cast Act root vs d → a ∈ vs → Act a x → Runs has d x d' →
    Reach has Cast Act root vs d'

/-- The type checker: what it accepts. -/
def Checked (o : Ops T) (has : T → V → Prop) : View T → List (View T) → Dict V → Prop :=
  Reach has (fun a b => matchesView o a b = true) fun a x => acceptsView o a x = true

/-! ## What is covered -/

/-- The names of the members are different. -/
def Distinct (td : TD T) : Prop := (td.named.map (·.name)).Nodup

/-- The casts that are covered: typed dicts of the same definition are the same, a closed typed dict
is only used for typed dicts without other names, and extra items that can be written are not used
for read-only ones. -/
structure CastFair (o : Ops T) (a b : TD T) : Prop where
  definition : a.definedAt = b.definedAt → a.named = b.named ∧ a.extra = b.extra
  closed : ∀ e, a.extra = some e → o.isNever e.ty = true →
    ∀ m ∈ b.named, ∃ n ∈ a.named, n.name = m.name
  writable : ∀ e f, a.extra = some e → b.extra = some f → e.readOnly = false → f.readOnly = false
  writableNames : ∀ e, a.extra = some e → e.readOnly = false →
    ∀ m ∈ b.named, (∀ n ∈ a.named, n.name ≠ m.name) → m.readOnly = false

/-- The same for all types. -/
def ViewFair (o : Ops T) : View T → View T → Prop
  | .td a, .td b => CastFair o a b ∧ Distinct a
  | _, _ => True

/-- The actions that are covered: `setdefault` only for members that are not read-only, `update` only
with typed dicts that are closed and have types that fit. -/
def ActFair (o : Ops T) : View T → Action T → Prop
  | .td td, .setDefault (.lits k ks) _ =>
    (∀ m ∈ td.named, m.name ∈ k :: ks → m.readOnly = false) ∧
      ∀ e, td.extra = some e → (∃ x ∈ k :: ks, ∀ m ∈ td.named, m.name ≠ x) → e.readOnly = false
  | .td td, .update arg =>
    (∃ e, arg.extra = some e ∧ o.isNever e.ty = true) ∧
      ∀ m ∈ arg.named, ∃ n ∈ td.named, n.name = m.name ∧ o.sub n.ty m.ty = true
  | _, _ => True

/-- The names of the root are different. -/
def View.Distinct : View T → Prop
  | .td a => Verif.TypedDict.Distinct a
  | _ => True

/-- What the type checker accepts and is covered. -/
def CheckedFair (o : Ops T) (has : T → V → Prop) : View T → List (View T) → Dict V → Prop :=
  Reach has (fun a b => matchesView o a b = true ∧ ViewFair o a b)
    fun a x => acceptsView o a x = true ∧ ActFair o a x

/-- Values of `c` can be used as `b`: they fit, and what is done with them then leaves them right. -/
structure UsableAs (o : Ops T) (has : T → V → Prop) (c b : TD T) : Prop where
  fits : ∀ d, Fits has c d → Fits has b d
  stays : ∀ d x d', Fits has c d → accepts o b x = true → ActFair o (.td b) x → Runs has d x d' →
    Fits has c d'

/-! ## A concrete theory of types -/

/-- `object` or a set of numbers, which are the values. -/
abbrev Set := Option (List Nat)

/-- The comparisons of sets. -/
def sets : Ops Set where
  sub a b := match a, b with
    | none, _ => true
    | some _, none => false
    | some a, some b => b.all fun x => a.contains x
  same a b := match a, b with
    | none, none => true
    | some a, some b => (b.all fun x => a.contains x) && a.all fun x => b.contains x
    | _, _ => false
  isNever a := a = some []
  union a b := match a, b with
    | some a, some b => some (a ++ b)
    | _, _ => none
  never := some []
  object := none
  none := some [0]

/-- A value of a set. -/
def Set.has : Set → Nat → Prop
  | none, _ => True
  | some a, v => v ∈ a

instance (s : Set) (v : Nat) : Decidable (s.has v) := by
  cases s <;> unfold Set.has <;> infer_instance

theorem sets_mean : Means sets Set.has where
  sub := by
    intro a b v h hv
    cases a with
    | none => trivial
    | some a =>
      cases b with
      | none => simp [sets] at h
      | some b =>
        simp only [sets, List.all_eq_true, List.contains_iff_mem] at h
        exact h v hv
  same := by
    intro a b v h
    cases a with
    | none =>
      cases b with
      | none => rfl
      | some b => simp [sets] at h
    | some a =>
      cases b with
      | none => simp [sets] at h
      | some b =>
        simp only [sets, Bool.and_eq_true, List.all_eq_true, List.contains_iff_mem] at h
        exact ⟨fun hv => h.2 v hv, fun hv => h.1 v hv⟩
  never := by
    intro t v h hv
    simp only [sets, decide_eq_true_eq] at h
    subst h
    cases hv
  bottom := by intro v h; cases h
  union := by
    intro a b v h
    cases a with
    | none => trivial
    | some a =>
      cases b with
      | none => trivial
      | some b => exact List.mem_append.mpr h
  object := trivial

end Verif.TypedDict
