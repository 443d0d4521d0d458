import Verif.Sub.OverlapTuple
import Verif.Sub.Violations

/-! # Assignable types overlap -/

namespace Verif.Sub

open Verif.Match Verif.Sub.Instance

variable {w : World} {b : Bool}

/-- C103: if one type can be assigned to the other, in either direction, the types are not
reported as not overlapping.  Not covered: tuples with `*tuple[..]`, `type[..]` of unions,
and `type[..]` together with `Never` or the plain class `type`. -/
theorem assignable_overlaps_partial (hc : Calm w b) {t s : Ty} (ht : Fine w b t) (hs : Fine w b s)
    {allow : Nat → Bool} {n : Nat} {r : Bool} (h : overlaps w allow n t s = some r)
    (ha : Accepts w false t s ∨ Accepts w true s t) : r = true := by
  cases r with
  | true => rfl
  | false =>
    have := overlaps_apart hc n t s ht hs n (Nat.le_refl n) h
    rcases ha with ha | ha
    · exact absurd ha this.sup
    · exact absurd ha this.sub

/-- C103 for one type: values of the same type may be compared. -/
theorem self_overlaps_partial (hc : Calm w b) {t : Ty} (ht : Fine w b t) {allow : Nat → Bool}
    {n : Nat} {r : Bool} (h : overlaps w allow n t t = some r) : r = true :=
  assignable_overlaps_partial hc ht ht h (Or.inl (accepts_own ht false))

/-- C103 for unions: a type overlaps with a union if it can be assigned to one of its members
or the member can be assigned to it. -/
theorem member_overlaps_partial (hc : Calm w b) {t : Ty} {ss : List Ty} (ht : Fine w b t)
    (htu : ∀ us, t ≠ .union us) (hs : Fine w b (.union ss)) {s : Ty} (hm : s ∈ ss)
    {allow : Nat → Bool} {n : Nat} {r : Bool} (h : overlaps w allow n t (.union ss) = some r)
    (ha : Accepts w false t s ∨ Accepts w true s t) : r = true := by
  cases r with
  | true => rfl
  | false =>
    obtain ⟨k, -, h2, -⟩ := parts_false ht h (Or.inl ⟨rfl, htu⟩) (Or.inr ⟨ss, rfl, hm⟩)
    have := overlaps_apart hc k t s ht (part_fine hs (Or.inr ⟨ss, rfl, hm⟩)) k (Nat.le_refl k) h2
    rcases ha with ha | ha
    · exact absurd ha this.sup
    · exact absurd ha this.sub

/-! ## The example world -/

theorem bases_world : Bases world where
  nominal := fun c x hx => by
    simp only [world] at hx
    unfold classes at hx
    split at hx <;> simp only [List.mem_singleton, List.not_mem_nil] at hx <;> subst hx <;> rfl
  root := rfl
  self := fun c as h => by
    simp only [world] at h
    unfold classes at h
    split at h <;> simp at h
  object := fun c as h => by
    simp only [world] at h
    unfold classes at h
    split at h <;> simp at h
  once := fun c d as as' h h' => by
    simp only [world] at h h'
    unfold classes at h h'
    split at h <;> simp_all
  cycle := fun c d as as' h h' => by
    simp only [world] at h h'
    unfold classes at h
    split at h <;> simp only [List.mem_singleton, List.not_mem_nil, Ty.cls.injEq] at h <;>
      obtain ⟨rfl, rfl⟩ := h <;> simp [classes] at h'
  tuple := fun x hx => by
    simp only [world, classes, List.mem_singleton] at hx
    exact ⟨7, [.var 0], hx⟩

theorem calm_world (b : Bool) : Calm world b where
  bases := bases_world
  strict := rfl
  complete := fun c => by
    simp only [world]
    unfold classes
    split <;> rfl
  object := rfl
  objectPlain := rfl
  int := rfl
  str := rfl
  bytes := rfl
  bool := rfl
  bare := by decide
  metaclass := fun c m hm => by
    simp only [world] at hm ⊢
    unfold classes at hm
    split at hm <;> simp only [Option.some.injEq, reduceCtorEq] at hm <;> subst hm <;>
      exact ⟨rfl, by decide⟩
  inherited := fun c as d xs h hd x hx => by
    simp only [world] at hd
    have get : ∀ {n : Nat}, Fine world b (.cls n as) → (classes n).params.length = 1 →
        ∀ x ∈ [Ty.var 0], Fine world b (x.subst as) := by
      intro n h hl x hx
      simp only [List.mem_singleton] at hx
      subst hx
      cases h with
      | cls h1 _ h3 =>
        have : as.length = 1 := h1.trans hl
        match as, this with
        | [a], _ => simpa [Ty.subst] using h3 a (by simp)
    unfold classes at hd
    split at hd <;> simp only [List.mem_singleton, List.not_mem_nil, Ty.cls.injEq] at hd <;>
      obtain ⟨rfl, rfl⟩ := hd <;> first
        | exact get h rfl x hx
        | exact absurd hx (by simp)
  newBase := fun i => ⟨rfl, fun c as h => by
    simp only [world, Ty.cls.injEq] at h
    obtain ⟨rfl, -⟩ := h
    rfl⟩
  promote := fun c d h => by
    simp only [world] at h
    unfold classes at h
    split at h <;> simp only [Option.some.injEq, reduceCtorEq] at h <;> subst h <;>
      exact ⟨rfl, fun e as he => absurd he (by simp [world, classes])⟩
  protocol := fun c as d bs h => by cases h
  protocolUnion := fun t ss rev h => by cases h
  protocolInt := fun t i rev h => by cases h
  protocolStr := fun t i rev h => by cases h
  protocolBytes := fun t i rev h => by cases h
  protocolBool := fun t i rev h => by cases h
  protocolType := fun _ t s => rfl

/-- No class is allowed to overlap with others. -/
def noAllow : Nat → Bool := fun _ => false

theorem fine_plain {c : Nat} (h : (world.cls c).params = []) (hb : c ≠ 5) : Fine world b (.cls c []) :=
  .cls (by simp [h]) (fun _ => hb) (by simp)

theorem fine_int : Fine world b int := fine_plain rfl (by decide)

theorem fine_str : Fine world b str := fine_plain rfl (by decide)

theorem fine_list {t : Ty} (h : Fine world b t) : Fine world b (list t) :=
  .cls rfl (fun _ => by decide) (by simpa using h)

/-- The hypotheses are met: `list[int | str]` and `Sequence[bool]` overlap, and neither can be
assigned to the other, while `list[int]` and `Sequence[object]` overlap because they must. -/
example : Calm world false ∧ Fine world false (list (.union [int, str])) ∧
    overlaps world noAllow 30 (list (.union [int, str])) (.cls 7 [.cls 2 []]) = some true ∧
    overlaps world noAllow 30 (list int) (.cls 7 [.cls 0 []]) = some true ∧
    Accepts world true (.cls 7 [.cls 0 []]) (list int) ∧
    overlaps world noAllow 30 (list int) (list str) = some false := by
  refine ⟨calm_world false, fine_list (.union (by simp) (by simp [int, str]) ?_), ?_, ?_, ?_, ?_⟩
  · intro t ht
    simp only [List.mem_cons, List.not_mem_nil, or_false] at ht
    rcases ht with rfl | rfl
    · exact fine_int
    · exact fine_str
  · decide +kernel
  · decide +kernel
  · exact ⟨30, .newTrue, by decide +kernel, rfl⟩
  · decide +kernel

/-- So the theorem says something about a contravariant parameter: `Sink[object]` can be
assigned to `Sink[int]`. -/
example : ∀ n r, overlaps world noAllow n (.cls 14 [int]) (.cls 14 [.cls 0 []]) = some r → r = true :=
  fun _ _ h => assignable_overlaps_partial (calm_world true)
    (.cls rfl (by simp) (by simpa using fine_int))
    (.cls rfl (by simp) (by simpa using fine_plain rfl (by decide))) h
    (Or.inl ⟨30, .newTrue, by decide +kernel, rfl⟩)

/-! ## Where it fails -/

/-- C103 is false for the class `type`: `type[int]` can be assigned to it, but they are found
not to overlap.  In the other order they do. -/
theorem overlap_type_violation :
    Accepts world true (.cls 5 []) (.type int) ∧
    overlaps world noAllow 30 (.type int) (.cls 5 []) = some false ∧
    overlaps world noAllow 30 (.cls 5 []) (.type int) = some true := by
  refine ⟨⟨30, .newTrue, by decide +kernel, rfl⟩, ?_, ?_⟩ <;> decide +kernel

/-- C103 is false for `Never` and `type[..]`. -/
theorem overlap_never_violation :
    Accepts world false (.type int) .never ∧
    overlaps world noAllow 30 (.type int) .never = some false ∧
    overlaps world noAllow 30 .never (.type int) = some true := by
  refine ⟨⟨30, .newTrue, by decide +kernel, rfl⟩, ?_, ?_⟩ <;> decide +kernel

/-- C103 is false for tuples with `*tuple[..]`: `tuple[*tuple[int, ...], int, str]` can be
assigned to `tuple[*tuple[int, ...], str]`, but the items after the `*` are compared from the
first one, `str` with `int`. -/
theorem overlap_unpack_violation :
    Accepts world false (.unpack [] int [str]) (.unpack [] int [int, str]) ∧
    overlaps world noAllow 30 (.unpack [] int [str]) (.unpack [] int [int, str]) = some false := by
  refine ⟨⟨40, .newTrue, by decide +kernel, rfl⟩, ?_⟩
  decide +kernel

/-- Types that are found not to overlap may have a value in common: the empty tuple. -/
theorem overlap_empty_violation :
    overlaps world noAllow 30 (.arb int) (.arb str) = some false ∧
    meaning.mem (.tup []) (.arb int) ∧ meaning.mem (.tup []) (.arb str) := by
  refine ⟨by decide +kernel, ?_, ?_⟩ <;> exact ⟨[], rfl, by simp⟩

end Verif.Sub
