import Verif.Sub.Sound
import Mathlib.Data.List.Dedup

/-!
# A small world of classes and values

The rules of `Lawful` and the conditions of `Tame` are met by a concrete world.
-/

namespace Verif.Sub.Instance

open Verif.Match Verif.Sub

/-- Values that can be in the lists of the example. -/
inductive Base where
  | int (i : Int)
  | bool (b : Bool)
  | str (s : String)
  | float
  | tup (xs : List Base)
  | box (b : Base)
  | cls (c : Nat)

/-- The values: base values, tuples, boxes, objects of a class, classes, lists that may
contain what is in a set, and functions that accept what is in a set. -/
inductive Val where
  | none
  | base (b : Base)
  | bytes (b : List Nat)
  | tup (vs : List Val)
  | box (v : Val)
  | obj (c : Nat)
  | list (P : Base → Prop)
  | sink (P : Base → Prop)

/-- The value of a base value. -/
def toVal : Base → Val
  | .tup xs => .tup (xs.map toVal)
  | .box b => .box (toVal b)
  | b => .base b

/-- The classes: 0 object, 1 int, 2 bool, 3 str, 4 bytes, 5 type, 6 tuple,
7 Sequence, 8 list, 9 float, 10 Box (a frozen dataclass), 11 Meta, 12 A with
metaclass Meta, 13 B(A), 14 Sink (a callback). -/
def classes : Nat → Cls
  | 1 => { promote := some 9 }
  | 2 => { promote := some 9, mro := [.cls 1 []] }
  | 6 => { params := [.cov], mro := [.cls 7 [.var 0]] }
  | 7 => { params := [.cov] }
  | 8 => { params := [.inv], mro := [.cls 7 [.var 0]] }
  | 10 => { params := [.cov] }
  | 11 => { isMeta := true, mro := [.cls 5 []] }
  | 12 => { metaclass := some 11 }
  | 13 => { metaclass := some 11, mro := [.cls 12 []] }
  | 14 => { params := [.contra] }
  | _ => {}

/-- The union of some types. -/
def joinTy (ts : List Ty) : Ty :=
  match ts.dedup with
  | [] => .never
  | [t] => t
  | us => .union us

def world : World where
  cls := classes
  newBase := fun _ => .cls 1 []
  object := 0
  bool := 2
  int := 1
  str := 3
  bytes := 4
  bare := 5
  tuple := 6
  strictOptional := true
  join := joinTy
  structural := fun _ _ => .newFalse

def isClass : Nat → List (Val → Prop) → Val → Prop
  | 0, [], _ => True
  | 1, [], v => (∃ i, v = .base (.int i)) ∨ ∃ b, v = .base (.bool b)
  | 2, [], v => ∃ b, v = .base (.bool b)
  | 3, [], v => ∃ s, v = .base (.str s)
  | 4, [], v => ∃ s, v = .bytes s
  | 5, [], v => ∃ c, v = .base (.cls c)
  | 6, [P], v => ∃ vs, v = .tup vs ∧ ∀ x ∈ vs, P x
  | 7, [P], v => (∃ vs, v = .tup vs ∧ ∀ x ∈ vs, P x) ∨
      (∃ Q, v = .list Q ∧ ∀ b, Q b → P (toVal b))
  | 8, [P], v => ∃ Q, v = .list Q ∧ ∀ b, Q b ↔ P (toVal b)
  | 9, [], v => v = .base .float ∨ (∃ i, v = .base (.int i)) ∨ ∃ b, v = .base (.bool b)
  | 10, [P], v => ∃ x, v = .box x ∧ P x
  | 11, [], v => v = .base (.cls 12) ∨ v = .base (.cls 13)
  | 12, [], v => v = .obj 12 ∨ v = .obj 13
  | 13, [], v => v = .obj 13
  | 14, [P], v => ∃ Q, v = .sink Q ∧ ∀ b, P (toVal b) → Q b
  | _, _, _ => False

/-- The values are in the sets, one by one. -/
def Pairs : List Val → List (Val → Prop) → Prop
  | [], [] => True
  | v :: vs, P :: Ps => P v ∧ Pairs vs Ps
  | _, _ => False

mutual
def sem : Ty → Val → Prop
  | .any, _ => True
  | .never, _ => False
  | .none, v => v = .none
  | .cls c as, v => isClass c (sems as) v
  | .data c as, v => c = 10 ∧ isClass c (sems as) v
  | .lit (.int i), v => v = .base (.int i)
  | .lit (.str s), v => v = .base (.str s)
  | .lit (.bytes s), v => v = .bytes s
  | .lit (.bool b), v => v = .base (.bool b)
  | .union ts, v => ∃ P ∈ sems ts, P v
  | .fixed ts, v => ∃ vs, v = .tup vs ∧ Pairs vs (sems ts)
  | .arb t, v => ∃ vs, v = .tup vs ∧ ∀ x ∈ vs, sem t x
  | .unpack a b c, v => ∃ xs ys zs, v = .tup (xs ++ ys ++ zs) ∧ Pairs xs (sems a) ∧
      (∀ y ∈ ys, sem b y) ∧ Pairs zs (sems c)
  | .type t, v => ∃ c, v = .base (.cls c) ∧ sem t (.obj c)
  | .newType _, v => ∃ i, v = .base (.int i)
  | .var _, _ => False

def sems : List Ty → List (Val → Prop)
  | [] => []
  | t :: ts => sem t :: sems ts
end

def meaning : Meaning Val where
  mem := fun v t => sem t v
  items := fun v => match v with
    | .tup vs => some vs
    | _ => none

theorem sems_map : ∀ ts, sems ts = ts.map sem
  | [] => by simp [sems]
  | t :: ts => by simp [sems, sems_map ts]

theorem pairs_each : ∀ {vs : List Val} {ts : List Ty}, Pairs vs (sems ts) ↔ Each meaning vs ts
  | [], [] => by simp only [sems, Pairs, true_iff]; exact .nil
  | [], t :: ts => by
    simp only [sems, Pairs, false_iff]
    intro h; cases h
  | v :: vs, [] => by
    simp only [sems, Pairs, false_iff]
    intro h; cases h
  | v :: vs, t :: ts => by
    simp only [sems, Pairs]
    constructor
    · rintro ⟨h1, h2⟩; exact .cons h1 (pairs_each.mp h2)
    · intro h
      cases h with
      | cons h1 h2 => exact ⟨h1, pairs_each.mpr h2⟩

theorem sems_mem {P : Val → Prop} {ts : List Ty} : P ∈ sems ts ↔ ∃ t ∈ ts, P = sem t := by
  rw [sems_map, List.mem_map]
  constructor
  · rintro ⟨t, h, rfl⟩; exact ⟨t, h, rfl⟩
  · rintro ⟨t, h, rfl⟩; exact ⟨t, h, rfl⟩

theorem items_some {v : Val} {vs : List Val} : meaning.items v = some vs ↔ v = .tup vs := by
  cases v <;> simp [meaning]

/-- Classes with no or one parameter are monotone in the way their variance says. -/
theorem isClass_args {c : Nat} {as bs : List Ty} (hlen : as.length = bs.length)
    (h : ∀ (k : Nat) p a b, (classes c).params[k]? = some p → as[k]? = some a → bs[k]? = some b →
      Fits meaning p a b) {v : Val} (hv : isClass c (sems as) v) : isClass c (sems bs) v := by
  match as, bs, hlen with
  | [], [], _ => exact hv
  | [a], [b], _ =>
    simp only [sems] at hv ⊢
    match c, hv, h with
    | 0, hv, _ | 1, hv, _ | 2, hv, _ | 3, hv, _ | 4, hv, _ | 5, hv, _ | 9, hv, _ | 11, hv, _
    | 12, hv, _ | 13, hv, _ | n + 15, hv, _ => simp [isClass] at hv
    | 6, hv, h =>
      have : Within meaning a b := h 0 .cov a b rfl rfl rfl
      obtain ⟨vs, rfl, h2⟩ := hv
      exact ⟨vs, rfl, fun x hx => this x (h2 x hx)⟩
    | 7, hv, h =>
      have : Within meaning a b := h 0 .cov a b rfl rfl rfl
      rcases hv with ⟨vs, rfl, h2⟩ | ⟨Q, rfl, h2⟩
      · exact Or.inl ⟨vs, rfl, fun x hx => this x (h2 x hx)⟩
      · exact Or.inr ⟨Q, rfl, fun x hx => this _ (h2 x hx)⟩
    | 8, hv, h =>
      have : Within meaning a b ∧ Within meaning b a := h 0 .inv a b rfl rfl rfl
      obtain ⟨Q, rfl, h2⟩ := hv
      exact ⟨Q, rfl, fun x => (h2 x).trans ⟨this.1 _, this.2 _⟩⟩
    | 10, hv, h =>
      have : Within meaning a b := h 0 .cov a b rfl rfl rfl
      obtain ⟨x, rfl, h2⟩ := hv
      exact ⟨x, rfl, this x h2⟩
    | 14, hv, h =>
      have : Within meaning b a := h 0 .contra a b rfl rfl rfl
      obtain ⟨Q, rfl, h2⟩ := hv
      exact ⟨Q, rfl, fun x hx => h2 x (this _ hx)⟩
  | a :: a' :: as, b :: b' :: bs, _ =>
    exfalso
    simp only [sems] at hv
    unfold isClass at hv
    split at hv <;> simp_all

theorem lawful : Lawful world meaning where
  never := fun v h => by simp [meaning, sem] at h
  object := fun v t h => by simp [meaning, sem, world, sems, isClass]
  union := fun v ts => by
    simp only [meaning, sem, sems_mem]
    constructor
    · rintro ⟨P, ⟨t, h1, rfl⟩, h2⟩; exact ⟨t, h1, h2⟩
    · rintro ⟨t, h1, h2⟩; exact ⟨_, ⟨t, h1, rfl⟩, h2⟩
  int := fun v i h => by simp only [meaning, sem, world, sems, isClass] at h ⊢; exact Or.inl ⟨i, h⟩
  str := fun v i h => by simp only [meaning, sem, world, sems, isClass] at h ⊢; exact ⟨i, h⟩
  bytes := fun v i h => by simp only [meaning, sem, world, sems, isClass] at h ⊢; exact ⟨i, h⟩
  boolLit := fun v i h => by simp only [meaning, sem, world, sems, isClass] at h ⊢; exact ⟨i, h⟩
  bool := fun v h => by
    simp only [meaning, sem, world, sems, isClass] at h ⊢
    obtain ⟨b, rfl⟩ := h
    cases b <;> simp
  base := fun v c as b h hb => by
    simp only [meaning, sem, world] at h hb ⊢
    unfold classes at hb
    split at hb <;> simp only [List.mem_singleton, List.not_mem_nil] at hb
    · subst hb
      match as with
      | [] =>
        simp only [isClass, sems] at h
        simp only [Ty.subst, substs, sem, sems, isClass]
        exact Or.inr h
      | a :: as => simp [sems, isClass] at h
    · subst hb
      match as with
      | [a] =>
        simp only [isClass, sems] at h
        simp only [Ty.subst, substs, sem, sems, isClass, List.getD_cons_zero]
        exact Or.inl h
      | [] => simp [sems, isClass] at h
      | a :: b :: as => simp [sems, isClass] at h
    · subst hb
      match as with
      | [a] =>
        simp only [isClass, sems] at h
        simp only [Ty.subst, substs, sem, sems, isClass, List.getD_cons_zero]
        obtain ⟨Q, h1, h2⟩ := h
        exact Or.inr ⟨Q, h1, fun b hb => (h2 b).mp hb⟩
      | [] => simp [sems, isClass] at h
      | a :: b :: as => simp [sems, isClass] at h
    · subst hb
      match as with
      | [] =>
        simp only [isClass, sems] at h
        simp only [Ty.subst, substs, sem, sems, isClass]
        rcases h with h | h <;> exact ⟨_, h⟩
      | a :: as => simp [sems, isClass] at h
    · subst hb
      match as with
      | [] =>
        simp only [isClass, sems] at h
        simp only [Ty.subst, substs, sem, sems, isClass]
        exact Or.inr h
      | a :: as => simp [sems, isClass] at h
  dataBase := fun v c as b h hb => by
    simp only [meaning, sem, world] at h hb
    obtain ⟨rfl, h⟩ := h
    simp [classes] at hb
  args := fun v c as bs hlen h hv => isClass_args hlen h hv
  dataArgs := fun v c as bs hlen h hv => ⟨hv.1, isClass_args hlen h hv.2⟩
  fixed := fun v ts => by
    simp only [items_some]
    simp only [meaning, sem]
    constructor
    · rintro ⟨vs, h1, h2⟩; exact ⟨vs, h1, pairs_each.mp h2⟩
    · rintro ⟨vs, h1, h2⟩; exact ⟨vs, h1, pairs_each.mpr h2⟩
  arb := fun v t => by
    simp only [items_some]
    simp only [meaning, sem]
  unpack := fun v a b c => by
    simp only [items_some]
    simp only [meaning, sem]
    constructor
    · rintro ⟨xs, ys, zs, h1, h2, h3, h4⟩
      exact ⟨xs, ys, zs, h1, pairs_each.mp h2, h3, pairs_each.mp h4⟩
    · rintro ⟨xs, ys, zs, h1, h2, h3, h4⟩
      exact ⟨xs, ys, zs, h1, pairs_each.mpr h2, h3, pairs_each.mpr h4⟩
  tuple := fun v vs t hv h => by
    rw [items_some] at hv
    simp only [meaning, sem, world, sems, isClass]
    exact ⟨vs, hv, h⟩
  join := fun v ts t ht h => by
    have hm := List.mem_dedup.mpr ht
    simp only [world, joinTy]
    split
    · rename_i he; rw [he] at hm; simp at hm
    · rename_i u he
      rw [he, List.mem_singleton] at hm
      subst hm; exact h
    · simp only [meaning, sem, sems_mem]
      exact ⟨_, ⟨t, hm, rfl⟩, h⟩
  type := fun v s t h hv => by
    simp only [meaning, sem] at hv ⊢
    obtain ⟨c, rfl, h2⟩ := hv
    exact ⟨c, rfl, h _ h2⟩
  typeUnion := fun v ts hv => by
    simp only [meaning, sem, sems_mem] at hv ⊢
    obtain ⟨c, rfl, P, ⟨t, h1, rfl⟩, h2⟩ := hv
    exact ⟨t, h1, c, rfl, h2⟩
  metaclass := fun v c as m hm hv => by
    simp only [meaning, sem, world] at hv hm ⊢
    obtain ⟨d, rfl, h2⟩ := hv
    unfold classes at hm
    split at hm <;> simp only [Option.some.injEq, reduceCtorEq] at hm
    · subst hm
      match as with
      | [] =>
        simp only [sems, isClass, Val.obj.injEq] at h2 ⊢
        rcases h2 with rfl | rfl <;> simp
      | a :: as => simp [sems, isClass] at h2
    · subst hm
      match as with
      | [] =>
        simp only [sems, isClass, Val.obj.injEq] at h2 ⊢
        subst h2; simp
      | a :: as => simp [sems, isClass] at h2
  bare := fun v t hv => by
    simp only [meaning, sem, world, sems, isClass] at hv ⊢
    obtain ⟨c, rfl, _⟩ := hv
    exact ⟨c, rfl⟩
  newType := fun v i hv => by
    simp only [meaning, sem, world, sems, isClass] at hv ⊢
    exact Or.inl hv
  promote := fun v c as d hp hv => by
    simp only [meaning, sem, world] at hv hp ⊢
    unfold classes at hp
    split at hp <;> simp only [Option.some.injEq, reduceCtorEq] at hp
    · subst hp
      match as with
      | [] =>
        simp only [sems, isClass] at hv ⊢
        exact Or.inr hv
      | a :: as => simp [sems, isClass] at hv
    · subst hp
      match as with
      | [] =>
        simp only [sems, isClass] at hv ⊢
        exact Or.inr (Or.inr hv)
      | a :: as => simp [sems, isClass] at hv
  structural := fun t s h => by cases h

theorem good_join {p q : Nat} {ts : List Ty} (h : ∀ t ∈ ts, Good world p q false t) :
    Good world p q false (joinTy ts) := by
  have hm : ∀ t ∈ ts.dedup, Good world p q false t := fun t ht => h t (List.mem_dedup.mp ht)
  have hd := List.nodup_dedup ts
  unfold joinTy
  split
  · exact .never
  · rename_i u he
    exact hm u (by simp [he])
  · rename_i h0 _
    exact .union h0 hd hm

theorem tame (p q : Nat) : Tame world p q where
  strict := rfl
  complete := fun c => by
    simp only [world]
    unfold classes
    split <;> rfl
  bases := fun c as b h hb => by
    simp only [world] at hb
    have one : ∀ {a : Ty}, Good world p q false a → Good world p q false (.cls 7 [a]) := by
      intro a ha
      refine .cls rfl (fun k x v hx hv => ?_)
      cases k with
      | zero =>
        simp only [List.getElem?_cons_zero, Option.some.injEq] at hx
        have hv' : some Variance.cov = some v := hv
        cases hv'
        subst hx
        exact ha
      | succ k => simp at hx
    unfold classes at hb
    split at hb <;> simp only [List.mem_singleton, List.not_mem_nil] at hb <;> subst hb
    · exact .plain rfl
    · cases h with
      | cls h1 h2 =>
        match as, h1 with
        | [a], _ => exact one (h2 0 a .cov rfl rfl)
    · cases h with
      | cls h1 h2 =>
        match as, h1 with
        | [a], _ => exact one (h2 0 a .inv rfl rfl).weaken
    · exact .plain rfl
    · exact .plain rfl
  newBase := fun i => .plain rfl
  join := fun ts h => good_join h
  tuple := rfl
  object := rfl
  int := rfl
  str := rfl
  bytes := rfl
  bool := rfl
  bare := rfl
  metaclass := fun c m hm => by
    simp only [world] at hm ⊢
    unfold classes at hm
    split at hm <;> simp only [Option.some.injEq, reduceCtorEq] at hm <;> subst hm <;> rfl
  promote := fun c m hm => by
    simp only [world] at hm ⊢
    unfold classes at hm
    split at hm <;> simp only [Option.some.injEq, reduceCtorEq] at hm <;> subst hm <;> rfl

end Verif.Sub.Instance
