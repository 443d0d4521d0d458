import Verif.Sub.Terminates
import Verif.Sub.Props

/-!
# The comparison ends, and what it says about special types
-/

namespace Verif.Sub

open Verif.Match

variable {w : World} {h : Heights} {r : Nat → Nat}

/-- C95: the comparison of two types ends with an answer.  Partial: the type arguments of
base classes are not higher than the class, for some heights of the classes.  Without
this the claim is false, see `endless_violation`. -/
theorem ends_partial (hw : Layered w h r) (rev : Bool) (t s : Ty) :
    Accepts w rev t s ∨ Rejects w rev t s := by
  obtain ⟨n, m, hn⟩ := (all_below hw (h.ty w t + h.ty w s + 1) t s (by omega) rev).1
  cases hm : m.bool with
  | true => exact Or.inl ⟨n, m, hn n (Nat.le_refl n), hm⟩
  | false => exact Or.inr ⟨n, m, hn n (Nat.le_refl n), hm⟩

/-- C97: `Any` and `Never` can be assigned to every type, and every type can be assigned to
`Any`.  For `Any` this also holds below invariant type parameters. -/
theorem any_never_accepted (w : World) (rev : Bool) (t : Ty) :
    Accepts w rev t .any ∧ Accepts w rev t .never ∧ Accepts w rev .any t ∧
    (∃ n m, isSame w n rev t .any = some m ∧ m.bool = true) ∧
    (∃ n m, isSame w n rev .any t = some m ∧ m.bool = true) := by
  obtain ⟨n1, h1⟩ := bottom_accepted (w := w) .any t
  obtain ⟨n2, h2⟩ := bottom_accepted (w := w) .never t
  obtain ⟨n3, h3⟩ := any_same_right (w := w) t
  exact ⟨⟨n1, h1 n1 (Nat.le_refl _) rev⟩, ⟨n2, h2 n2 (Nat.le_refl _) rev⟩,
    ⟨2, any_accepts 0 rev t⟩, ⟨n3, h3 n3 (Nat.le_refl _) rev⟩, ⟨2, any_same_left 0 rev t⟩⟩

/-- C97: everything can be assigned to `object`. -/
theorem object_accepts_all (hp : (w.cls w.object).params = [])
    (hprot : (w.cls w.object).isProtocol = false) (hb : NominalBases w) (rev : Bool) (s : Ty) :
    Accepts w rev (.cls w.object []) s :=
  ⟨8, .newTrue, object_accepts hp hprot hb s 0 rev, rfl⟩

theorem anyM_some {f : Ty → Option Match} : ∀ {ts : List Ty} {r m : Match} {t : Ty},
    anyM f r ts = some m → t ∈ ts → (∃ m', f t = some m' ∧ m'.bool = true) → m.bool = true
  | [], _, _, _, _, ht, _ => absurd ht (by simp)
  | a :: ts, r, m, t, hm, ht, hf => by
    simp only [anyM] at hm
    cases ha : f a with
    | none => rw [ha] at hm; cases hm
    | some m' =>
      rw [ha] at hm
      simp only [Option.bind_some] at hm
      split at hm
      · cases hm; assumption
      · rename_i hb
        rcases List.mem_cons.mp ht with rfl | ht
        · obtain ⟨m'', h1, h2⟩ := hf
          rw [ha] at h1
          cases h1
          exact absurd h2 hb
        · exact anyM_some hm ht hf

/-- C98: a member of a union can be assigned to the union, and so can what can be assigned to a
member.  Partial: in worlds where the comparison ends. -/
theorem union_member_partial (hw : Layered w h r) {us : List Ty} {u s : Ty} (hu : u ∈ us)
    (hs : s.unionLike = false) (rev : Bool) (ha : Accepts w rev u s) :
    Accepts w rev (.union us) s := by
  obtain ⟨n, m, hn⟩ := (all_below hw (h.ty w (.union us) + h.ty w s + 1) (.union us) s
    (by omega) rev).1
  obtain ⟨k, m', hk, hm'⟩ := ha
  have h1 : isSuper w (n + k + 3) rev (.union us) s = some m := hn (n + k + 3) (by omega)
  refine ⟨_, m, h1, ?_⟩
  unfold isSuper at h1
  rw [if_neg (by simp [Ty.nominal])] at h1
  have key : ∀ r, internal w (n + k + 2) .cov rev (.union us) s = some r → r.bool = true := by
    intro r hr
    simp only [internal] at hr
    rw [if_neg (by simp)] at hr
    unfold unionSuper at hr
    split at hr
    · simp [Ty.unionLike] at hs
    · simp [Ty.unionLike] at hs
    · split at hr
      · cases hr; rfl
      · exact anyM_some hr hu ⟨m', super_mono (by omega) rev u s m' hk, hm'⟩
  cases hi : internal w (n + k + 2) .cov rev (.union us) s with
  | none => rw [hi] at h1; cases h1
  | some r =>
    rw [hi] at h1
    simp only [Option.bind_some] at h1
    rw [if_neg (Yes.ne (key r hi))] at h1
    cases h1
    exact key _ hi

theorem allM_yes {f : Ty → Option Match} : ∀ {ts : List Ty} {r m : Match}, r.bool = true →
    (∀ t ∈ ts, ∀ m', f t = some m' → m'.bool = true) → allM f r ts = some m → m.bool = true
  | [], r, m, hr, _, h => by simp only [allM, Option.some.injEq] at h; subst h; exact hr
  | t :: ts, r, m, hr, hf, h => by
    simp only [allM] at h
    cases ha : f t with
    | none => rw [ha] at h; cases h
    | some m' =>
      rw [ha] at h
      simp only [Option.bind_some] at h
      have := and_true.mpr ⟨hr, hf t (by simp) m' ha⟩
      rw [if_pos this] at h
      exact allM_yes this (fun t ht => hf t (by simp [ht])) h

/-- C98: a union can be assigned to another if each of its members can.  Partial: in worlds
where the comparison ends, with strict optional, for members that are not unions,
`Any`, `Never` or a `NewType`. -/
theorem union_of_members_partial (hw : Layered w h r) {us ss : List Ty}
    (hs : ∀ s ∈ ss, s.unionLike = false) (hstrict : w.strictOptional = true)
    (hk : ∀ s ∈ ss, s ≠ .any ∧ s ≠ .never ∧ ∀ i, s ≠ .newType i) (rev : Bool)
    (ha : ∀ s ∈ ss, Accepts w rev (.union us) s) : Accepts w rev (.union us) (.union ss) := by
  obtain ⟨n, m, hn⟩ := (all_below hw (h.ty w (.union us) + h.ty w (.union ss) + 1) (.union us)
    (.union ss) (by omega) rev).1
  have fuel : ∃ K, ∀ s ∈ ss, ∃ m', isSuper w K rev (.union us) s = some m' ∧ m'.bool = true := by
    clear hn
    induction ss with
    | nil => exact ⟨0, by simp⟩
    | cons s ss ih =>
      obtain ⟨K, hK⟩ := ih (fun s h => hs s (by simp [h])) (fun s h => hk s (by simp [h]))
        (fun s h => ha s (by simp [h]))
      obtain ⟨k, m', h1, h2⟩ := ha s (by simp)
      refine ⟨K + k, fun s' hs' => ?_⟩
      rcases List.mem_cons.mp hs' with rfl | hs'
      · exact ⟨m', super_mono (by omega) _ _ _ m' h1, h2⟩
      · obtain ⟨m'', h3, h4⟩ := hK s' hs'
        exact ⟨m'', super_mono (by omega) _ _ _ m'' h3, h4⟩
  obtain ⟨K, hK⟩ := fuel
  have h1 : isSuper w (n + K + 4) rev (.union us) (.union ss) = some m :=
    hn (n + K + 4) (by omega)
  refine ⟨_, m, h1, ?_⟩
  have each : ∀ s ∈ ss, ∀ m', unionSuper w (n + K + 1) rev us s = some m' → m'.bool = true := by
    intro s hsm m' hm'
    obtain ⟨m2, h2, h3⟩ := hK s hsm
    have h4 := super_mono (w := w) (k := n + K + 3) (by omega) rev _ _ m2 h2
    unfold isSuper at h4
    rw [if_neg (by simp [Ty.nominal])] at h4
    have hi : internal w (n + K + 2) .cov rev (.union us) s = some m' := by
      simp only [internal]
      rw [if_neg (by simp)]
      exact hm'
    rw [hi] at h4
    simp only [Option.bind_some] at h4
    split at h4
    · have hl := hs s hsm
      unfold other at h4
      rcases hk s hsm with ⟨h5, h6, h7⟩
      split at h4
      · exact absurd rfl h5
      · rw [hstrict] at h4; cases h4; cases h3
      · simp [Ty.unionLike] at hl
      · exact absurd rfl (h7 _)
      · exact absurd rfl h6
      · cases h4; cases h3
    · cases h4; exact h3
  unfold isSuper at h1
  rw [if_neg (by simp [Ty.nominal])] at h1
  have key : ∀ r, internal w (n + K + 3) .cov rev (.union us) (.union ss) = some r →
      r.bool = true := by
    intro r hr
    simp only [internal] at hr
    rw [if_neg (by simp)] at hr
    unfold unionSuper at hr
    simp only at hr
    split at hr
    · cases hr; rfl
    · exact allM_yes rfl each hr
  cases hi : internal w (n + K + 3) .cov rev (.union us) (.union ss) with
  | none => rw [hi] at h1; cases h1
  | some r =>
    rw [hi] at h1
    simp only [Option.bind_some] at h1
    rw [if_neg (Yes.ne (key r hi))] at h1
    cases h1
    exact key _ hi

/-! Cases that meet the hypotheses. -/

namespace Instance

def heights : Heights where
  cls := fun c => match c with
    | 6 | 8 => 1
    | 1 | 2 => 1
    | 13 => 1
    | _ => if c = 12 then 1 else 0
  newType := fun _ => 3

def promotionRank : Nat → Nat
  | 1 | 2 => 1
  | _ => 0

theorem tys_le {w : World} {h : Heights} {n : Nat} : ∀ {ts : List Ty}, 1 ≤ n →
    (∀ t ∈ ts, h.ty w t + 1 ≤ n) → h.tys w ts ≤ n
  | [], hn, _ => by simpa [Heights.tys] using hn
  | t :: ts, hn, ha => by
    have := tys_le (ts := ts) hn (fun t ht => ha t (by simp [ht]))
    have := ha t (by simp)
    simp only [Heights.tys]; omega

theorem layered : Layered world heights promotionRank where
  nominal := fun c b hb => by
    simp only [world] at hb
    unfold classes at hb
    split at hb <;> simp only [List.mem_singleton, List.not_mem_nil] at hb <;> subst hb <;> rfl
  args := fun c b hb x hx => by
    simp only [world] at hb
    unfold classes at hb
    split at hb <;> simp only [List.mem_singleton, List.not_mem_nil] at hb <;> subst hb <;>
      simp only [Ty.parts, List.mem_singleton, List.not_mem_nil] at hx <;> subst hx <;>
      simp [Heights.ty]
  metaclass := fun c m hm => by
    simp only [world] at hm
    unfold classes at hm
    split at hm <;> simp only [Option.some.injEq, reduceCtorEq] at hm <;> subst hm <;>
      simp [heights]
  newBase := fun i => by simp [world, Heights.ty, Heights.tys, heights]
  join := fun ts => by
    simp only [world, joinTy]
    split
    · simp [Heights.ty]
    · rename_i u he
      have := tys_mem (w := world) (h := heights) (t := u) (ts := ts)
        (List.mem_dedup.mp (by simp [he]))
      exact Nat.le_of_lt this
    · simp only [Heights.ty]
      refine tys_le (tys_pos _) (fun t ht => tys_mem (List.mem_dedup.mp ht))
  promote := fun c d hd => by
    simp only [world] at hd
    unfold classes at hd
    split at hd <;> simp only [Option.some.injEq, reduceCtorEq] at hd <;> subst hd <;>
      simp [promotionRank]

/-- The classes with a class that is an argument of its own base, as `str` is. -/
def strWorld : World :=
  { world with cls := fun c => if c = 3 then { mro := [.cls 7 [.cls 3 []]] } else classes c }

mutual
theorem ty_str : ∀ t : Ty, heights.ty strWorld t = heights.ty world t
  | .any | .never | .none | .var _ | .newType _ => by simp only [Heights.ty]
  | .lit (.int _) | .lit (.str _) | .lit (.bytes _) | .lit (.bool _) => by
    simp only [Heights.ty]; rfl
  | .cls c as => by simp only [Heights.ty, tys_str as]
  | .data c as => by simp only [Heights.ty, tys_str as]
  | .union ts => by simp only [Heights.ty, tys_str ts]
  | .fixed ts => by simp only [Heights.ty, tys_str ts]; rfl
  | .arb t => by simp only [Heights.ty, ty_str t]; rfl
  | .unpack a b c => by simp only [Heights.ty, tys_str a, ty_str b, tys_str c]; rfl
  | .type t => by simp only [Heights.ty, ty_str t]

theorem tys_str : ∀ ts : List Ty, heights.tys strWorld ts = heights.tys world ts
  | [] => by simp only [Heights.tys]
  | t :: ts => by simp only [Heights.tys, ty_str t, tys_str ts]
end

theorem layered_str : Layered strWorld heights promotionRank where
  nominal := fun c b hb => by
    by_cases hc : c = 3
    · subst hc
      have hb' : b ∈ [Ty.cls 7 [.cls 3 []]] := hb
      simp only [List.mem_singleton] at hb'
      subst hb'; rfl
    · exact layered.nominal c b (by simpa [strWorld, hc, world] using hb)
  args := fun c b hb x hx => by
    by_cases hc : c = 3
    · subst hc
      have hb' : b ∈ [Ty.cls 7 [.cls 3 []]] := hb
      simp only [List.mem_singleton] at hb'
      subst hb'
      simp only [Ty.parts, List.mem_singleton] at hx
      subst hx
      simp [Heights.ty, Heights.tys]
    · rw [ty_str]
      exact layered.args c b (by simpa [strWorld, hc, world] using hb) x hx
  metaclass := fun c m hm => by
    by_cases hc : c = 3
    · subst hc; cases hm
    · exact layered.metaclass c m (by simpa [strWorld, hc, world] using hm)
  newBase := layered.newBase
  join := fun ts => by rw [ty_str, tys_str]; exact layered.join ts
  promote := fun c d hd => by
    by_cases hc : c = 3
    · subst hc; cases hd
    · exact layered.promote c d (by simpa [strWorld, hc, world] using hd)

/-- Whether `str` is a sequence of sequences of strings is answered, with yes. -/
example : Accepts strWorld false (seq (seq str)) str :=
  ⟨40, .newTrue, by decide +kernel, rfl⟩

example : Accepts world false (.union [.none, float]) int :=
  union_member_partial layered (u := float) (by simp) rfl false
    ⟨40, .newTrue, by decide +kernel, rfl⟩

example : Accepts world false (.union [.none, float, str]) (.union [str, int]) :=
  union_of_members_partial layered (by simp [str, int, Ty.unionLike]) rfl
    (by simp [str, int]) false (by
      intro s hs
      simp only [List.mem_cons, List.not_mem_nil, or_false] at hs
      rcases hs with rfl | rfl <;> exact ⟨40, .newTrue, by decide +kernel, rfl⟩)

example : Accepts world false (.cls world.object []) (.union [.none, .type (.cls 12 [])]) :=
  object_accepts_all rfl rfl layered.nominal false _

end Instance

end Verif.Sub
