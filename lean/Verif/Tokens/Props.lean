import Verif.Tokens.Spec
import Verif.Lines.Props
import Batteries.Data.List.Basic

/-!
# Properties of semantic tokens
-/

namespace Verif.Tokens

open Verif.Lines Verif.Lines.Spec

/-! ## C199: the encoding of tokens -/

/-- Where a client is after some tokens. -/
def endPos : Pos → List Encoded → Pos
  | prev, [] => prev
  | prev, e :: es =>
    endPos (if e.deltaLine = 0 then ⟨prev.line, prev.col + e.deltaStart⟩ else ⟨prev.line + e.deltaLine, e.deltaStart⟩) es

theorem decode_append (ks : List Kind) (ms : List Modifier) (p : Pos) (a b : List Encoded) :
    Spec.decode ks ms p (a ++ b) = Spec.decode ks ms p a ++ Spec.decode ks ms (endPos p a) b := by
  induction a generalizing p with
  | nil => rfl
  | cons e a ih => simp only [List.cons_append, Spec.decode, endPos, ih]

theorem endPos_append (p : Pos) (a b : List Encoded) : endPos p (a ++ b) = endPos (endPos p a) b := by
  induction a generalizing p with
  | nil => rfl
  | cons e a ih => simp only [List.cons_append, endPos, ih]

/-- The builder knows where the client is. -/
def Inv (b : Builder) : Prop := endPos ⟨0, 0⟩ b.data = ⟨b.prevLine, b.prevChar⟩

theorem inv_new : Inv .new := rfl

theorem typeIndex_legend (k : Kind) : kinds[typeIndex k]? = some k := by cases k <;> decide

/-- One token: the client gets it as it is. -/
theorem push_ok (b b' : Builder) (start : Pos) (len : Nat) (k : Kind) (p : Props) (hi : Inv b)
    (h : b.push start len k p = some b') :
    Inv b' ∧ b'.data ≠ [] ∧ (⟨b'.prevLine, b'.prevChar⟩ : Pos) = start ∧
    Spec.decode kinds modifiers ⟨0, 0⟩ b'.data =
      Spec.decode kinds modifiers ⟨0, 0⟩ b.data ++ [⟨start, len, some k, Spec.decodeModifiers modifiers (bitset p)⟩] := by
  have key : ∀ line char : Nat,
      (if line = 0 then (⟨b.prevLine, b.prevChar + char⟩ : Pos) else ⟨b.prevLine + line, char⟩) = start →
      b' = ⟨start.line, start.col, b.data ++ [⟨line, char, len, typeIndex k, bitset p⟩]⟩ →
      Inv b' ∧ b'.data ≠ [] ∧ (⟨b'.prevLine, b'.prevChar⟩ : Pos) = start ∧
      Spec.decode kinds modifiers ⟨0, 0⟩ b'.data =
        Spec.decode kinds modifiers ⟨0, 0⟩ b.data ++ [⟨start, len, some k, Spec.decodeModifiers modifiers (bitset p)⟩] := by
    intro line char hp hb
    unfold Inv at hi
    subst hb
    refine ⟨?_, by simp, rfl, ?_⟩
    · simp only [Inv, endPos_append, endPos, hi, hp]
    · simp only [decode_append, hi, Spec.decode, hp, typeIndex_legend]
  unfold Builder.push at h
  simp only at h
  split at h
  · rename_i he
    have he : b.data = [] := by simpa using he
    unfold Inv at hi
    rw [he] at hi
    simp only [endPos, Pos.mk.injEq] at hi
    refine key start.line start.col ?_ (Option.some.inj h).symm
    rw [← hi.1, ← hi.2]
    obtain ⟨l, c⟩ := start
    split <;> simp_all
  · split at h
    · simp at h
    · rename_i h1
      split at h
      · rename_i h2
        split at h
        · simp at h
        · rename_i h3
          refine key _ _ ?_ (Option.some.inj h).symm
          rw [if_pos h2]
          obtain ⟨l, c⟩ := start
          simp only [Pos.mk.injEq] at *
          omega
      · rename_i h2
        refine key _ _ ?_ (Option.some.inj h).symm
        rw [if_neg h2]
        obtain ⟨l, c⟩ := start
        simp only at h1 h2
        simp only [Pos.mk.injEq, and_true]
        omega

/-- There is an underflow only if a token is before the one before it. -/
theorem push_none (b : Builder) (start : Pos) (len : Nat) (k : Kind) (p : Props) :
    b.push start len k p = none ↔ b.data ≠ [] ∧ (⟨b.prevLine, b.prevChar⟩ : Pos).gt start = true := by
  unfold Builder.push Pos.gt
  simp only [decide_eq_true_eq]
  cases hd : b.data with
  | nil => simp
  | cons x xs =>
    simp only [List.isEmpty_cons, Bool.false_eq_true, if_false, ne_eq, reduceCtorEq, not_false_eq_true, true_and]
    split
    · simp; omega
    · split
      · split <;> simp <;> omega
      · simp; omega

/-! ## Positions -/

theorem toPosition_ok (enc : Enc) (code pre post : List Char) (h : code = pre ++ post) :
    ∃ pos, toPosition enc code (size pre) = some pos ∧ LaxPosAt enc code pos pre := by
  obtain ⟨col, oob, h1, h2, _⟩ := offset_round_trip enc code pre post h
  exact ⟨_, by rw [toPosition, h1]; rfl, h2⟩

theorem toPosition_mono (enc : Enc) (code pre1 post1 pre2 post2 : List Char) (h1 : code = pre1 ++ post1)
    (h2 : code = pre2 ++ post2) (hs : size pre1 ≤ size pre2) (p1 p2 : Pos)
    (e1 : toPosition enc code (size pre1) = some p1) (e2 : toPosition enc code (size pre2) = some p2) :
    p1.gt p2 = false := by
  cases hg : p1.gt p2 with
  | false => rfl
  | true =>
    exfalso
    obtain ⟨q1, f1, l1⟩ := toPosition_ok enc code pre1 post1 h1
    obtain ⟨q2, f2, l2⟩ := toPosition_ok enc code pre2 post2 h2
    rw [e1] at f1; cases f1
    rw [e2] at f2; cases f2
    have hg' : p2.gt p1 = false := by
      simp only [Pos.gt, decide_eq_true_eq, decide_eq_false_iff_not] at *
      omega
    obtain ⟨mid, rfl⟩ := Lines.Spec.LaxPosAt.mono l2 l1 hg'
    have : mid = [] := by
      cases mid with
      | nil => rfl
      | cons c cs =>
        have := size_pos (a := c :: cs) (by simp)
        rw [size_append] at hs
        omega
    subst this
    simp only [List.append_nil] at e1
    rw [e1] at e2; cases e2
    simp [Pos.gt] at hg

/-! ## The response -/

/-- What a client should see of a token. -/
def seen (enc : Enc) (code : List Char) (t : Token) : Spec.Decoded :=
  ⟨(toPosition enc code t.leaf.start).getD ⟨0, 0⟩, t.length, some t.kind, Spec.decodeModifiers modifiers (bitset t.props)⟩

/-- Offsets at which something starts. -/
def Boundary (code : List Char) (n : Nat) : Prop := ∃ pre post, code = pre ++ post ∧ size pre = n

theorem pushAll_ok (enc : Enc) (code : List Char) (ts : List Token)
    (hb : ∀ t ∈ ts, Boundary code t.leaf.start) (hs : ts.Pairwise fun a b => a.leaf.start ≤ b.leaf.start) (b : Builder)
    (hi : Inv b)
    (hp : b.data = [] ∨ ∃ n, Boundary code n ∧ toPosition enc code n = some ⟨b.prevLine, b.prevChar⟩ ∧
      ∀ t ∈ ts, n ≤ t.leaf.start) :
    ∃ b', pushAll enc code ts b = some b' ∧
      Spec.decode kinds modifiers ⟨0, 0⟩ b'.data = Spec.decode kinds modifiers ⟨0, 0⟩ b.data ++ ts.map (seen enc code) := by
  induction ts generalizing b with
  | nil => exact ⟨b, rfl, by simp⟩
  | cons t ts ih =>
    obtain ⟨pre, post, hc, hz⟩ := hb t (List.mem_cons_self ..)
    obtain ⟨pos, hpos, _⟩ := toPosition_ok enc code pre post hc
    rw [hz] at hpos
    rw [pushAll, hpos]
    simp only
    cases hpush : b.push pos t.length t.kind t.props with
    | none =>
      obtain ⟨hd, hg⟩ := (push_none ..).1 hpush
      rcases hp with hp | ⟨n, ⟨pre0, post0, hc0, hz0⟩, hn, hle⟩
      · exact absurd hp hd
      · have := toPosition_mono enc code pre0 post0 pre post hc0 hc (by rw [hz, hz0]; exact hle t (List.mem_cons_self ..))
          ⟨b.prevLine, b.prevChar⟩ pos (by rw [hz0]; exact hn) (by rw [hz]; exact hpos)
        rw [this] at hg; simp at hg
    | some b1 =>
      obtain ⟨hi1, _, hprev, hdec⟩ := push_ok b b1 pos t.length t.kind t.props hi hpush
      obtain ⟨hlt, hs⟩ := List.pairwise_cons.1 hs
      obtain ⟨b', h1, h2⟩ := ih (fun t ht => hb t (List.mem_cons_of_mem _ ht)) hs b1 hi1
        (.inr ⟨t.leaf.start, ⟨pre, post, hc, hz⟩, by rw [hprev]; exact hpos, hlt⟩)
      refine ⟨b', h1, ?_⟩
      rw [h2, hdec]
      simp [seen, hpos]

theorem tokens_leaf (leaves : List Leaf) (resolve : Leaf → Option (Kind × Props)) (maxByte : Nat)
    (range : Option (Nat × Nat)) : ∀ t ∈ tokens leaves resolve maxByte range, t.leaf ∈ leaves ∧ t.leaf.isName = true ∧
      resolve t.leaf = some (t.kind, t.props) := by
  intro t ht
  simp only [tokens, allNames, List.mem_filterMap] at ht
  obtain ⟨l, hl, h⟩ := ht
  obtain ⟨h1, h2⟩ := List.mem_filter.1 hl
  split at h
  · simp at h
  · cases hr : resolve l with
    | none => simp [hr] at h
    | some kp =>
      simp [hr] at h
      subst h
      exact ⟨List.mem_of_mem_drop h1, h2, hr⟩

theorem tokens_sorted (leaves : List Leaf) (resolve : Leaf → Option (Kind × Props)) (maxByte : Nat)
    (range : Option (Nat × Nat)) (ho : Spec.Ordered leaves) :
    (tokens leaves resolve maxByte range).Pairwise fun a b => a.leaf.start ≤ b.leaf.start := by
  have h1 : leaves.Pairwise fun a b => a.start ≤ b.start := by
    obtain ⟨h, hp⟩ := ho
    refine (List.Pairwise.imp_of_mem (R := fun a b => a.stop ≤ b.start) ?_ hp)
    intro a b ha _ hab
    exact Nat.le_trans (h a ha) hab
  unfold tokens allNames
  simp only
  refine List.Pairwise.filterMap _ ?_ ((h1.sublist (List.drop_sublist _ _)).sublist (List.filter_sublist))
  intro a b hab x hx y hy
  have aux : ∀ (l : Leaf) (x : Token),
      x ∈ (if l.stop < (range.getD (0, maxByte)).1 ∨ l.start > (range.getD (0, maxByte)).2 then none
        else (resolve l).map fun (k, p) => (⟨l, k, p⟩ : Token)) → x.leaf = l := by
    intro l x hx
    split at hx
    · simp at hx
    · simp only [Option.mem_def, Option.map_eq_some_iff] at hx
      obtain ⟨_, _, rfl⟩ := hx
      rfl
  rw [aux a x hx, aux b y hy]
  exact hab

/-- A name does not start with the second half of a line terminator, so its position is an ordinary one. -/
theorem lax_strict (enc : Enc) (code pre mid post : List Char) (pos : Pos) (hc : code = pre ++ mid ++ post) (hm : mid ≠ [])
    (hn : mid.head? ≠ some '\n') (h : LaxPosAt enc code pos pre) : PosAt enc code pos pre := by
  rcases h with h | ⟨A, l, B, h1, _, _, h4⟩
  · exact h
  · exfalso
    have e : code = textOf A ++ (l ++ ['\r', '\n'] ++ textOf B) := by
      conv => lhs; rw [← textOf_splitLines code, h1, textOf_append, textOf_cons]
    rw [hc, h4] at e
    simp only [List.append_assoc, List.append_cancel_left_eq, List.cons_append, List.nil_append, List.cons.injEq,
      true_and] at e
    cases mid with
    | nil => exact hm rfl
    | cons c cs =>
      simp at e
      exact hn (by rw [e.1]; rfl)

/-- The response is never a panic, and what the client makes of it are the tokens, at their places. -/
theorem response (enc : Enc) (code : List Char) (leaves : List Leaf) (resolve : Leaf → Option (Kind × Props)) (maxByte : Nat)
    (range : Option (Nat × Nat)) (ho : Spec.Ordered leaves) (hc : Spec.InCode code leaves) :
    ∃ data, respond enc code leaves resolve maxByte range = some data ∧
      List.Forall₂ (fun (t : Token) (d : Spec.Decoded) =>
          (∀ pre mid, Spec.TextOf code t.leaf pre mid → mid ≠ [] → mid.head? ≠ some '\n' → PosAt enc code d.pos pre) ∧
          (∀ pre mid, Spec.TextOf code t.leaf pre mid → d.length = size mid) ∧
          d.kind = some t.kind ∧ ∀ m, m ∈ d.modifiers ↔ Spec.Has t.props m)
        (tokens leaves resolve maxByte range) (Spec.decode kinds modifiers ⟨0, 0⟩ data) := by
  have hb : ∀ t ∈ tokens leaves resolve maxByte range, Boundary code t.leaf.start := by
    intro t ht
    obtain ⟨pre, mid, post, h1, h2, _⟩ := hc _ (tokens_leaf leaves resolve maxByte range t ht).1
    exact ⟨pre, mid ++ post, by rw [h1]; simp, h2⟩
  obtain ⟨b', h1, h2⟩ := pushAll_ok enc code _ hb (tokens_sorted leaves resolve maxByte range ho) .new inv_new (.inl rfl)
  refine ⟨b'.data, by rw [respond, h1]; rfl, ?_⟩
  rw [h2]
  simp only [Builder.new, Spec.decode, List.nil_append]
  generalize tokens leaves resolve maxByte range = ts
  induction ts with
  | nil => exact .nil
  | cons t ts ih =>
    refine .cons ⟨?_, ?_, rfl, ?_⟩ ih
    · rintro pre mid ⟨post, e1, e2, e3⟩ hm hn
      obtain ⟨pos, p1, p2⟩ := toPosition_ok enc code pre (mid ++ post) (by rw [e1]; simp)
      rw [e2] at p1
      simp only [seen, p1]
      exact lax_strict enc code pre mid post pos e1 hm hn p2
    · rintro pre mid ⟨post, e1, e2, e3⟩
      simp only [seen, Token.length]
      rw [size_append] at e3
      omega
    · intro m
      obtain ⟨_, _, p⟩ := t
      obtain ⟨b1, b2, b3, b4, b5, b6, b7, b8⟩ := p
      simp only [seen]
      cases m <;> simp only [Spec.Has] <;> revert b1 b2 b3 b4 b5 b6 b7 b8 <;> decide +kernel

/-! ## C200: lengths -/

/-- The full statement: lengths are in the units that were negotiated. -/
def LengthsAreRight : Prop :=
  ∀ (enc : Enc) (code : List Char) (leaves : List Leaf) (resolve : Leaf → Option (Kind × Props)) (maxByte : Nat)
    (range : Option (Nat × Nat)) (data : List Encoded), Spec.Ordered leaves → Spec.InCode code leaves →
    respond enc code leaves resolve maxByte range = some data →
    List.Forall₂ (fun (t : Token) (d : Spec.Decoded) => ∀ pre mid, Spec.TextOf code t.leaf pre mid → d.length = width enc mid)
      (tokens leaves resolve maxByte range) (Spec.decode kinds modifiers ⟨0, 0⟩ data)

theorem size_width (enc : Enc) (s : List Char) (h : enc = .utf8 ∨ ∀ c ∈ s, c.val < 0x80) : size s = width enc s := by
  rcases h with rfl | h
  · exact (width_utf8 s).symm
  · induction s with
    | nil => rfl
    | cons c s ih =>
      have hc := h c (List.mem_cons_self ..)
      have ih := ih fun d hd => h d (List.mem_cons_of_mem _ hd)
      have h1 : c.utf8Size = 1 := by
        unfold Char.utf8Size
        have : c.val ≤ 0x7f := by
          rw [UInt32.le_iff_toNat_le]; rw [UInt32.lt_iff_toNat_lt] at hc
          simp at hc ⊢; omega
        simp [this]
      have h2 : utf16Len c = 1 := by
        unfold utf16Len
        have : c.val < 0x10000 := by
          rw [UInt32.lt_iff_toNat_lt] at hc ⊢
          simp at hc ⊢; omega
        simp [this]
      cases enc <;> simp only [size, width, h1, h2, ih]

/-- Lengths are right if columns are counted in bytes, and for names that are ASCII. -/
theorem lengths_partial (enc : Enc) (code : List Char) (leaves : List Leaf) (resolve : Leaf → Option (Kind × Props))
    (maxByte : Nat) (range : Option (Nat × Nat)) (data : List Encoded) (ho : Spec.Ordered leaves)
    (hc : Spec.InCode code leaves) (h : respond enc code leaves resolve maxByte range = some data)
    (ha : enc = .utf8 ∨ ∀ l ∈ leaves, l.isName = true → ∀ pre mid, Spec.TextOf code l pre mid → ∀ c ∈ mid, c.val < 0x80) :
    List.Forall₂ (fun (t : Token) (d : Spec.Decoded) => ∀ pre mid, Spec.TextOf code t.leaf pre mid → d.length = width enc mid)
      (tokens leaves resolve maxByte range) (Spec.decode kinds modifiers ⟨0, 0⟩ data) := by
  obtain ⟨data', h1, h2⟩ := response enc code leaves resolve maxByte range ho hc
  rw [h] at h1; cases h1
  have hl := tokens_leaf leaves resolve maxByte range
  generalize tokens leaves resolve maxByte range = ts at h2 hl
  generalize Spec.decode kinds modifiers ⟨0, 0⟩ data = ds at h2
  induction h2 with
  | nil => exact .nil
  | @cons t d ts ds hd _ ih =>
    refine .cons ?_ (ih fun t ht => hl t (List.mem_cons_of_mem _ ht))
    intro pre mid hm
    rw [hd.2.1 pre mid hm]
    refine size_width enc mid ?_
    rcases ha with ha | ha
    · exact .inl ha
    · have := hl t (List.mem_cons_self ..)
      exact .inr (ha t.leaf this.1 this.2.1 pre mid hm)

/-- In `é = 1` the name has one unit in UTF-16, but the length that is sent is 2: it is the number of bytes. -/
theorem lengths_violation : ¬ LengthsAreRight := by
  intro h
  let leaves : List Leaf := [⟨0, 2, true⟩]
  let resolve : Leaf → Option (Kind × Props) := fun _ => some (.variable, {})
  have hc : Spec.InCode ['é', ' ', '=', ' ', '1'] leaves := by
    intro l hl
    simp [leaves] at hl; subst hl
    exact ⟨[], ['é'], [' ', '=', ' ', '1'], rfl, rfl, by decide⟩
  have := h .utf16 ['é', ' ', '=', ' ', '1'] leaves resolve 100 none [⟨0, 0, 2, 8, 0⟩]
    ⟨by simp [leaves], by simp [leaves]⟩ hc (by decide +kernel)
  have e : tokens leaves resolve 100 none = [⟨⟨0, 2, true⟩, .variable, {}⟩] := rfl
  rw [e] at this
  cases this with
  | cons hd _ =>
    have := hd [] ['é'] ⟨[' ', '=', ' ', '1'], rfl, rfl, by decide⟩
    simp [width] at this
    exact absurd this (by decide)

/-! ## C201: ranges -/

theorem takeWhile_get {α : Type} (p : α → Bool) (l : List α) (i : Nat) (h : i < (l.takeWhile p).length) (x : α)
    (hx : l[(i : Nat)]? = some x) : p x = true := by
  induction l generalizing i with
  | nil => simp at h
  | cons a l ih =>
    rw [List.takeWhile_cons] at h
    split at h
    · rename_i ha
      cases i with
      | zero => simp at hx; rw [← hx]; exact ha
      | succ i => exact ih i (by simpa using h) (by simpa using hx)
    · simp at h

theorem ordered_lt {leaves : List Leaf} (ho : Spec.Ordered leaves) {i j : Nat} (hij : i < j) {a b : Leaf}
    (ha : leaves[(i : Nat)]? = some a) (hb : leaves[(j : Nat)]? = some b) : a.stop ≤ b.start := by
  obtain ⟨h1, rfl⟩ := List.getElem?_eq_some_iff.1 ha
  obtain ⟨h2, rfl⟩ := List.getElem?_eq_some_iff.1 hb
  exact List.pairwise_iff_getElem.1 ho.2 i j h1 h2 hij

/-- The leaves before the one that is found end before the position. -/
theorem leafByPosition_before (leaves : List Leaf) (pos : Nat) (ho : Spec.Ordered leaves) (i : Nat)
    (hi : i < leafByPosition leaves pos) (l : Leaf) (hl : leaves[(i : Nat)]? = some l) : l.stop ≤ pos := by
  unfold leafByPosition at hi
  simp only at hi
  split at hi
  · omega
  · rename_i hne
    have hlast : ∀ x, leaves[((leaves.takeWhile (·.start ≤ pos)).length - 1 : Nat)]? = some x → x.start ≤ pos := by
      intro x hx
      simpa using takeWhile_get (fun l : Leaf => decide (l.start ≤ pos)) leaves _ (by omega) x hx
    have before : i < (leaves.takeWhile (·.start ≤ pos)).length - 1 → l.stop ≤ pos := by
      intro h
      have hlen : (leaves.takeWhile (·.start ≤ pos)).length ≤ leaves.length := (List.takeWhile_sublist _).length_le
      have hx : leaves[((leaves.takeWhile (·.start ≤ pos)).length - 1 : Nat)]? =
          some (leaves[(leaves.takeWhile (·.start ≤ pos)).length - 1]'(by omega)) := List.getElem?_eq_getElem _
      exact Nat.le_trans (ordered_lt ho h hl hx) (hlast _ hx)
    split at hi
    · rename_i x hx
      split at hi
      · rename_i h
        by_cases hlt : i < (leaves.takeWhile (·.start ≤ pos)).length - 1
        · exact before hlt
        · have : i = (leaves.takeWhile (·.start ≤ pos)).length - 1 := by omega
          subst this
          rw [hl] at hx; cases hx
          omega
      · exact before hi
    · exact before hi

theorem mem_allNames (leaves : List Leaf) (pos : Nat) (ho : Spec.Ordered leaves) (l : Leaf) (hl : l ∈ leaves)
    (hn : l.isName = true) (hp : pos < l.stop) : l ∈ allNames leaves pos := by
  unfold allNames
  simp only
  refine List.mem_filter.2 ⟨?_, hn⟩
  obtain ⟨i, hi⟩ := List.mem_iff_getElem?.1 hl
  have hle : leafByPosition leaves pos ≤ i := by
    rcases Nat.lt_or_ge i (leafByPosition leaves pos) with h | h
    · have := leafByPosition_before leaves pos ho i h l hi; omega
    · exact h
  generalize hk : (if (leaves[(leafByPosition leaves pos : Nat)]?).any (·.start == pos) = true then
    leafByPosition leaves pos - 1 else leafByPosition leaves pos) = k
  have hki : k ≤ i := by rw [← hk]; split <;> omega
  refine List.mem_iff_getElem?.2 ⟨i - k, ?_⟩
  rw [List.getElem?_drop, Nat.add_sub_cancel' hki]
  exact hi

/-- All names in a range are sent, and only names that touch it. -/
theorem range_tokens (leaves : List Leaf) (resolve : Leaf → Option (Kind × Props)) (maxByte : Nat) (a b : Nat)
    (ho : Spec.Ordered leaves) :
    (∀ l ∈ leaves, l.isName = true → a < l.stop → l.start ≤ b → ∀ k p, resolve l = some (k, p) →
      ⟨l, k, p⟩ ∈ tokens leaves resolve maxByte (some (a, b))) ∧
    (∀ t ∈ tokens leaves resolve maxByte (some (a, b)), t.leaf ∈ leaves ∧ t.leaf.isName = true ∧ a ≤ t.leaf.stop ∧
      t.leaf.start ≤ b ∧ resolve t.leaf = some (t.kind, t.props)) := by
  constructor
  · intro l hl hn h1 h2 k p hr
    simp only [tokens, Option.getD_some, List.mem_filterMap]
    refine ⟨l, mem_allNames leaves a ho l hl hn h1, ?_⟩
    rw [if_neg (by omega), hr]
    rfl
  · intro t ht
    obtain ⟨h1, h2, h3⟩ := tokens_leaf leaves resolve maxByte (some (a, b)) t ht
    refine ⟨h1, h2, ?_⟩
    simp only [tokens, Option.getD_some, List.mem_filterMap] at ht
    obtain ⟨l, _, h⟩ := ht
    split at h
    · simp at h
    · simp only [Option.map_eq_some_iff] at h
      obtain ⟨_, _, rfl⟩ := h
      simp only at h3 ⊢
      refine ⟨by omega, by omega, h3⟩

/-- Without a range all names are sent. -/
theorem all_tokens (leaves : List Leaf) (resolve : Leaf → Option (Kind × Props)) (maxByte : Nat) (ho : Spec.Ordered leaves)
    (hm : ∀ l ∈ leaves, l.stop ≤ maxByte) (he : ∀ l ∈ leaves, l.isName = true → l.start < l.stop) (l : Leaf) (k : Kind)
    (p : Props) :
    ⟨l, k, p⟩ ∈ tokens leaves resolve maxByte none ↔ l ∈ leaves ∧ l.isName = true ∧ resolve l = some (k, p) := by
  have e : tokens leaves resolve maxByte none = tokens leaves resolve maxByte (some (0, maxByte)) := rfl
  rw [e]
  constructor
  · intro h
    obtain ⟨h1, h2, _, _, h3⟩ := (range_tokens leaves resolve maxByte 0 maxByte ho).2 _ h
    exact ⟨h1, h2, h3⟩
  · rintro ⟨h1, h2, h3⟩
    have := he l h1 h2
    exact (range_tokens leaves resolve maxByte 0 maxByte ho).1 l h1 h2 (by omega)
      (Nat.le_trans (ho.1 l h1) (hm l h1)) k p h3

/-- The code `a = b\nc`, without spaces in its leaves. -/
def Example.leaves : List Leaf :=
  [⟨0, 1, true⟩, ⟨2, 3, false⟩, ⟨4, 5, true⟩, ⟨5, 6, false⟩, ⟨6, 7, true⟩, ⟨7, 7, false⟩]
def Example.code : List Char := ['a', ' ', '=', ' ', 'b', '\n', 'c']
def Example.resolve : Leaf → Option (Kind × Props)
  | ⟨0, _, _⟩ => some (.variable, { definition := true })
  | ⟨4, _, _⟩ => some (.class_, {})
  | _ => some (.function, { async := true, deprecated := true })

theorem Example.ordered : Spec.Ordered Example.leaves := ⟨by decide, by decide⟩

theorem Example.inCode : Spec.InCode Example.code Example.leaves := by
  intro l hl
  simp [Example.leaves] at hl
  rcases hl with rfl | rfl | rfl | rfl | rfl | rfl
  · exact ⟨[], ['a'], [' ', '=', ' ', 'b', '\n', 'c'], by decide, by decide, by decide⟩
  · exact ⟨['a', ' '], ['='], [' ', 'b', '\n', 'c'], by decide, by decide, by decide⟩
  · exact ⟨['a', ' ', '=', ' '], ['b'], ['\n', 'c'], by decide, by decide, by decide⟩
  · exact ⟨['a', ' ', '=', ' ', 'b'], ['\n'], ['c'], by decide, by decide, by decide⟩
  · exact ⟨['a', ' ', '=', ' ', 'b', '\n'], ['c'], [], by decide, by decide, by decide⟩
  · exact ⟨['a', ' ', '=', ' ', 'b', '\n', 'c'], [], [], by decide, by decide, by decide⟩

example : respond .utf16 Example.code Example.leaves Example.resolve 1000 none =
    some [⟨0, 0, 1, 8, 2⟩, ⟨0, 4, 1, 2, 0⟩, ⟨1, 0, 1, 12, 80⟩] := by decide +kernel
example : respond .utf16 Example.code Example.leaves Example.resolve 1000 (some (6, 7)) =
    some [⟨1, 0, 1, 12, 80⟩] := by decide +kernel

end Verif.Tokens
