import Verif.Mapping.Model
import Verif.Pattern.Spec

/-!
# What mapping patterns do in Python (specification)
-/

namespace Verif.Mapping

open Verif.Pattern

/-- A program when it runs. -/
structure Run (B V : Type) where
  base : Pattern.Run B V
  /-- What a mapping maps its keys to; `none` if the object is no mapping. -/
  mapping : V → Option (V → Option V)
  text : Nat → V
  number : Nat → V
  dotted : Nat → V
  isStr : V → Prop
  /-- The object is a `dict` with these items that is made for `**rest`. -/
  newDict : (V → Option V) → V → Prop

variable {B V : Type} (r : Run B V)

/-- The value of a key. -/
def Key.val : Key → V
  | .text s => r.text s
  | .number n => r.number n
  | .dotted k => r.dotted k

/-- The mapping is without the keys. -/
def Without (m m' : V → Option V) (ks : List V) : Prop :=
  (∀ k ∈ ks, m' k = none) ∧ ∀ k, k ∉ ks → m' k = m k

mutual

/-- The pattern matches the value and binds the names. -/
def Matches : MPat → V → Binds V → Prop
  | .plain p, v, σ => Pattern.Matches r.base p v σ
  | .map es rest, v, σ => ∃ (m : V → Option V) (σ1 σ2 : Binds V), r.mapping v = some m ∧
      MatchesEntries es m σ1 ∧ σ = σ1 ++ σ2 ∧
      (match rest with
        | some n => ∃ (m' : V → Option V) (d : V), Without m m' (es.map (·.1.val r)) ∧
            r.newDict m' d ∧ σ2 = [(n, d)]
        | none => σ2 = [])

/-- All keys are there and their values match. -/
def MatchesEntries : List (Key × MPat) → (V → Option V) → Binds V → Prop
  | [], _, σ => σ = []
  | (k, p) :: es, m, σ => ∃ (x : V) (σ1 σ2 : Binds V), m (k.val r) = some x ∧ Matches p x σ1 ∧
      MatchesEntries es m σ2 ∧ σ = σ1 ++ σ2

end

/-- The pattern does not match. -/
def Fails (p : MPat) (v : V) : Prop := ∀ (σ : Binds V), ¬ Matches r p v σ

/-! ## Typed dicts -/

/-- A typed dict, PEP 589, 655 and 728: the keys are strings, required members are there, members
have their types, and so do the extra items. -/
structure DictHas (d : Dict B) (m : V → Option V) : Prop where
  keys : ∀ (k x : V), m k = some x → r.isStr k
  required : ∀ f ∈ d.members, f.required = true → ∃ (x : V), m (r.text f.name) = some x
  member : ∀ f ∈ d.members, ∀ (x : V), m (r.text f.name) = some x → Has r.base f.type x
  extra : ∀ (T : List (Ty B)), d.extra = some T → ∀ (k x : V), m k = some x →
    (∀ f ∈ d.members, k ≠ r.text f.name) → Has r.base T x

/-- A dotted name has the value. -/
def KeyTy.Has (t : KeyTy) (k : V) : Prop :=
  match t with
  | .literal s => k = r.text s
  | .str => r.isStr k
  | .other => True

/-! ## What the parameters of the model promise -/

/-- The parts of the checker that are modelled elsewhere and the program are right. -/
structure Sound (w : World B) : Prop where
  base : Pattern.Sound r.base w.base
  str : ∀ (k : V), r.isStr k → r.base.leafHas w.str k
  text : ∀ (s : Nat), r.isStr (r.text s)
  textInj : ∀ (s s' : Nat), r.text s = r.text s' → s = s'
  number : ∀ (n : Nat), ¬ r.isStr (r.number n)
  dotted : ∀ (k : Nat), ∃ t ∈ w.dotted k, t.Has r (r.dotted k)
  dict : ∀ (t : Ty B) (d : Dict B) (v : V), w.kind t = .dict d → t.Has r.base v →
    ∃ (m : V → Option V), r.mapping v = some m ∧ DictHas r d m
  other : ∀ (t : Ty B) (value : List Key → Option (List (Ty B))) (key : Option (List (Ty B)))
    (v : V) (m : V → Option V), w.kind t = .other value key → t.Has r.base v →
    r.mapping v = some m →
    (∀ (ks : List Key) (T : List (Ty B)), value ks = some T → ∀ k ∈ ks, ∀ (x : V),
      m (k.val r) = some x → Has r.base T x) ∧
    ∀ (K : List (Ty B)), key = some K → ∀ (k x : V), m k = some x → Has r.base K k
  dictOf : ∀ (K T : List (Ty B)) (m : V → Option V) (d : V), r.newDict m d →
    (∀ (k x : V), m k = some x → Has r.base K k ∧ Has r.base T x) →
    r.base.leafHas (w.dictOf K T) d
  fresh : ∀ (m : V → Option V), ∃ (d : V), r.newDict m d

/-- A key that is either typed as a string or not a string when the program runs. -/
def KeyOk (w : World B) (k : Key) : Prop :=
  match k with
  | .dotted k => (∀ t ∈ w.dotted k, t ≠ .other) ∨ ¬ r.isStr (r.dotted k)
  | _ => True

/-- The return type of `__getitem__` does not depend on the key. -/
def Uniform (w : World B) : Prop :=
  ∀ (t : Ty B) (value : List Key → Option (List (Ty B))) (key : Option (List (Ty B)))
    (v : V) (m : V → Option V), w.kind t = .other value key → t.Has r.base v →
    r.mapping v = some m → ∀ (ks : List Key) (T : List (Ty B)), value ks = some T →
    ∀ (k x : V), m k = some x → Has r.base T x

mutual

/-- All keys are fine, in all patterns. -/
def KeysOk (w : World B) : MPat → Prop
  | .plain _ => True
  | .map es _ => KeysOkAll w es

def KeysOkAll (w : World B) : List (Key × MPat) → Prop
  | [] => True
  | (k, p) :: es => KeyOk r w k ∧ KeysOk w p ∧ KeysOkAll w es

end

mutual

/-- The patterns that are not mapping patterns satisfy something. -/
def Plain (P : Pat → Prop) : MPat → Prop
  | .plain p => P p
  | .map es _ => PlainAll P es

def PlainAll (P : Pat → Prop) : List (Key × MPat) → Prop
  | [] => True
  | (_, p) :: es => Plain P p ∧ PlainAll P es

end

mutual

/-- There is no `**rest`. -/
def Restless : MPat → Prop
  | .plain _ => True
  | .map es rest => rest = none ∧ RestlessAll es

def RestlessAll : List (Key × MPat) → Prop
  | [] => True
  | (_, p) :: es => Restless p ∧ RestlessAll es

end

end Verif.Mapping
