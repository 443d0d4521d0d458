import Verif.Sub.Basic

/-! # More fuel does not change a result -/

namespace Verif.Sub

open Verif.Match

variable {w : World}

/-- The second gives the same where the first gives something. -/
def Keeps {α : Type} (a b : Option α) : Prop := ∀ x, a = some x → b = some x

theorem Keeps.refl {α : Type} (a : Option α) : Keeps a a := fun _ h => h

theorem Keeps.bind {α β : Type} {a b : Option α} {f g : α → Option β} (h : Keeps a b)
    (hf : ∀ x, Keeps (f x) (g x)) : Keeps (a.bind f) (b.bind g) := by
  intro x hx
  obtain ⟨y, h1, h2⟩ := Option.bind_eq_some_iff.mp hx
  rw [h y h1]
  exact hf y x h2

theorem Keeps.map {α β : Type} {a b : Option α} {f : α → β} (h : Keeps a b) :
    Keeps (a.map f) (b.map f) := by
  intro x hx
  obtain ⟨y, h1, h2⟩ := Option.map_eq_some_iff.mp hx
  rw [h y h1, ← h2]
  rfl

theorem Keeps.ite {α : Type} {c : Prop} [Decidable c] {a b a' b' : Option α} (h1 : Keeps a a')
    (h2 : Keeps b b') : Keeps (if c then a else b) (if c then a' else b') := by
  split <;> assumption

theorem Keeps.none {α : Type} {a : Option α} : Keeps (Option.none) a := fun _ h => by cases h

theorem keeps_orM {m : Match} {g g' : Unit → Option Match} (h : Keeps (g ()) (g' ())) :
    Keeps (orM m g) (orM m g') := by
  unfold orM
  exact .ite (.refl _) (.map h)

section
variable {f g : Ty → Option Match}

theorem keeps_allM (h : ∀ t, Keeps (f t) (g t)) : ∀ r ts, Keeps (allM f r ts) (allM g r ts)
  | _, [] => .refl _
  | r, t :: ts => .bind (h t) (fun m => .ite (keeps_allM h _ ts) (.refl _))

theorem keeps_anyM (h : ∀ t, Keeps (f t) (g t)) : ∀ r ts, Keeps (anyM f r ts) (anyM g r ts)
  | _, [] => .refl _
  | r, t :: ts => .bind (h t) (fun m => .ite (.refl _) (keeps_anyM h _ ts))

theorem keeps_foldM (h : ∀ t, Keeps (f t) (g t)) : ∀ r ts, Keeps (foldM f r ts) (foldM g r ts)
  | _, [] => .refl _
  | r, t :: ts => .bind (h t) (fun m => keeps_foldM h _ ts)

theorem keeps_allB (h : ∀ t, Keeps (f t) (g t)) : ∀ ts, Keeps (allB f ts) (allB g ts)
  | [] => .refl _
  | t :: ts => .bind (h t) (fun m => .ite (keeps_allB h ts) (.refl _))

theorem keeps_mroM (h : ∀ t, Keeps (f t) (g t)) : ∀ ts, Keeps (mroM f ts) (mroM g ts)
  | [] => .refl _
  | t :: ts => .bind (h t) (fun m => .ite (keeps_mroM h ts) (.refl _))
end

theorem keeps_zipM {f g : Ty → Ty → Option Match} (h : ∀ a b, Keeps (f a b) (g a b)) :
    ∀ r as bs, Keeps (zipM f r as bs) (zipM g r as bs)
  | _, [], _ => .refl _
  | _, _ :: _, [] => .refl _
  | _, a :: as, b :: bs => .bind (h a b) (fun m => keeps_zipM h _ as bs)

theorem keeps_zipV {f g : Variance → Ty → Ty → Option Match}
    (h : ∀ v a b, Keeps (f v a b) (g v a b)) :
    ∀ r as bs vs, Keeps (zipV f r as bs vs) (zipV g r as bs vs)
  | _, [], _, _ => .refl _
  | _, _ :: _, [], _ => .refl _
  | _, _ :: _, _ :: _, [] => .refl _
  | _, a :: as, b :: bs, v :: vs => .bind (h v a b) (fun m => keeps_zipV h _ as bs vs)

/-- One more unit of fuel keeps all results. -/
structure Kept (w : World) (n : Nat) : Prop where
  super : ∀ rev t s, Keeps (isSuper w n rev t s) (isSuper w (n + 1) rev t s)
  same : ∀ rev t s, Keeps (isSame w n rev t s) (isSame w (n + 1) rev t s)
  «matches» : ∀ v rev t s, Keeps («matches» w n v rev t s) («matches» w (n + 1) v rev t s)
  promotion : ∀ rev t s, Keeps (promotion w n rev t s) (promotion w (n + 1) rev t s)
  promoted : ∀ rev t c, Keeps (promoted w n rev t c) (promoted w (n + 1) rev t c)
  other : ∀ v rev t s, Keeps (other w n v rev t s) (other w (n + 1) v rev t s)
  unionSuper : ∀ rev us s, Keeps (unionSuper w n rev us s) (unionSuper w (n + 1) rev us s)
  matchesClass : ∀ v rev c as d bs,
    Keeps (matchesClass w n v rev c as d bs) (matchesClass w (n + 1) v rev c as d bs)
  classVsType : ∀ v rev c as s,
    Keeps (classVsType w n v rev c as s) (classVsType w (n + 1) v rev c as s)
  matchTuple : ∀ v rev t s, Keeps (matchTuple w n v rev t s) (matchTuple w (n + 1) v rev t s)
  matchUnpack : ∀ v rev a b c s,
    Keeps (matchUnpack w n v rev a b c s) (matchUnpack w (n + 1) v rev a b c s)
  internal : ∀ v rev t s, Keeps (internal w n v rev t s) (internal w (n + 1) v rev t s)

theorem kept : ∀ n, Kept w n
  | 0 => by constructor <;> intros <;> first
      | (simp only [isSuper]; exact .none) | (simp only [isSame]; exact .none)
      | (simp only [«matches»]; exact .none) | (simp only [promotion]; exact .none)
      | (simp only [promoted]; exact .none) | (simp only [other]; exact .none)
      | (simp only [unionSuper]; exact .none) | (simp only [matchesClass]; exact .none)
      | (simp only [classVsType]; exact .none) | (simp only [matchTuple]; exact .none)
      | (simp only [matchUnpack]; exact .none) | (simp only [internal]; exact .none)
  | n + 1 => by
    have h := kept n
    constructor
    · intro rev t s
      unfold isSuper
      exact .ite
        (.bind (keeps_mroM (fun b => h.internal _ _ _ _) _) (fun m => .ite
          (.bind (keeps_orM (h.other _ _ _ _)) (fun m' => keeps_orM (h.promotion _ _ _)))
          (.refl _)))
        (.bind (h.internal _ _ _ _) (fun m => .ite (h.other _ _ _ _) (.refl _)))
    · intro rev t s
      unfold isSame
      exact .bind (h.internal _ _ _ _) (fun m => keeps_orM (h.other _ _ _ _))
    · intro v rev t s
      cases v <;> simp only [«matches»]
      · exact h.super _ _ _
      · exact h.super _ _ _
      · exact h.same _ _ _
    · intro rev t s
      unfold promotion
      split
      · exact .ite (.refl _) (h.promoted _ _ _)
      · exact h.promoted _ _ _
      · exact .refl _
    · intro rev t c
      unfold promoted
      split
      · exact .bind (h.same _ _ _) (fun m => keeps_orM (h.promoted _ _ _))
      · exact .refl _
    · intro v rev t s
      unfold other
      split <;> try exact .refl _
      · exact .ite (.refl _) (.bind (keeps_allM (fun u => h.super _ _ _) _ _)
          (fun m => .ite (.map (h.super _ _ _)) (.refl _)))
      · exact .ite (h.matches _ _ _ _) (.refl _)
    · intro rev us s
      unfold unionSuper
      split
      · exact .ite (.refl _) (keeps_allM (fun u => h.unionSuper _ _ _) _ _)
      · exact h.unionSuper _ _ _
      · exact .ite (.refl _) (keeps_anyM (fun u => h.super _ _ _) _ _)
    · intro v rev c as d bs
      unfold matchesClass
      exact .ite (.refl _) (.ite (.refl _)
        (.map (keeps_zipV (fun _ _ _ => .ite (h.matches _ _ _ _) (h.matches _ _ _ _)) _ _ _ _)))
    · intro v rev c as s
      unfold classVsType
      split
      · exact h.matchesClass _ _ _ _ _ _
      · split
        · split
          · exact .ite (.refl _) (.bind (h.matches _ _ _ _) (fun m => .refl _))
          · exact .refl _
        · exact .refl _
      · exact .ite (h.matchesClass _ _ _ _ _ _) (.refl _)
      · exact .refl _
      · exact .refl _
    · intro v rev t s
      unfold matchTuple
      split
      · exact .ite (keeps_zipM (fun _ _ => h.matches _ _ _ _) _ _ _) (.refl _)
      · exact h.matches _ _ _ _
      · exact h.matchUnpack _ _ _ _ _ _
      · exact keeps_foldM (fun _ => h.matches _ _ _ _) _ _
      · exact .refl _
      · exact .ite (.refl _) (.map (keeps_allB (fun _ => h.matches _ _ _ _) _))
      · exact .refl _
    · intro v rev a b c s
      unfold matchUnpack
      split
      · exact .bind (keeps_zipM (fun _ _ => h.matches _ _ _ _) _ _ _) (fun _ =>
          .bind (keeps_zipM (fun _ _ => h.matches _ _ _ _) _ _ _) (fun _ =>
            .ite (.refl _) (keeps_foldM (fun _ => h.matches _ _ _ _) _ _)))
      · exact .bind (keeps_zipM (fun _ _ => h.matches _ _ _ _) _ _ _) (fun _ =>
          .bind (keeps_zipM (fun _ _ => h.matches _ _ _ _) _ _ _) (fun _ =>
            keeps_foldM (fun _ => h.matches _ _ _ _) _ _))
      · exact .refl _
      · exact .refl _
    · intro v rev t s
      unfold internal
      split
      · exact h.classVsType _ _ _ _ _
      · split
        · exact .ite (.refl _) (.map (h.matches _ _ _ _))
        · split
          · exact h.internal _ _ _ _
          · exact .refl _
        · exact .refl _
        · exact .refl _
      · exact .refl _
      · exact .refl _
      · exact .refl _
      · split <;> first | exact .map (h.matchTuple _ _ _ _) | exact .refl _
      · split <;> first | exact .map (h.matchTuple _ _ _ _) | exact .refl _
      · split <;> first | exact .map (h.matchTuple _ _ _ _) | exact .refl _
      · exact .ite (.bind (h.super _ _ _) (fun m => .map (h.super _ _ _))) (h.unionSuper _ _ _)
      · exact .refl _
      · exact .refl _
      · split
        · exact h.matchesClass _ _ _ _ _ _
        · exact .refl _
      · exact .refl _

theorem super_mono {n k : Nat} (h : n ≤ k) (rev : Bool) (t s : Ty) :
    Keeps (isSuper w n rev t s) (isSuper w k rev t s) := by
  induction h with
  | refl => exact .refl _
  | step _ ih => exact fun x hx => (kept _).super _ _ _ x (ih x hx)

theorem same_mono {n k : Nat} (h : n ≤ k) (rev : Bool) (t s : Ty) :
    Keeps (isSame w n rev t s) (isSame w k rev t s) := by
  induction h with
  | refl => exact .refl _
  | step _ ih => exact fun x hx => (kept _).same _ _ _ x (ih x hx)

end Verif.Sub
