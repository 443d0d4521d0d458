import Verif.Call.Bind

/-!
# The arguments of an orderly call

The order in which the arguments of an orderly call are handed out.
-/

namespace Verif.Call

open Verif.Call.Spec

variable {α τ : Type}

def posOf : CallArg α → List α
  | .pos v => [v]
  | .star vs _ => vs
  | _ => []

def moreOf : CallArg α → List α
  | .star _ more => more.toList
  | _ => []

def namedOf : CallArg α → List (Named α)
  | .kw n v => [⟨n, false, v⟩]
  | .starStar ms _ => ms.map fun m => ⟨m.1, true, m.2⟩
  | _ => []

def extraOf : CallArg α → List α
  | .starStar _ extra => extra.toList
  | _ => []

/-- No argument is in the wrong place for `Ab.flat`. -/
def okAfter : CallArg α → CallArg α → Prop
  | .kw .., .pos _ => False
  | .kw .., .star .. => False
  | .starStar .., .pos _ => False
  | .starStar .., .star .. => False
  | .starStar _ (some _), _ => False
  | .star _ (some _), .pos _ => False
  | .star _ (some _), .star .. => False
  | _, _ => True

theorem no_pos {call : List (CallArg α)} (h : ∀ b ∈ call, (∀ v, b ≠ .pos v) ∧ ∀ vs w, b ≠ .star vs w) :
    call.flatMap posOf = [] ∧ call.flatMap moreOf = [] := by
  constructor
  · rw [List.flatMap_eq_nil_iff]
    intro b hb
    obtain ⟨h1, h2⟩ := h b hb
    cases b with
    | pos v => exact absurd rfl (h1 v)
    | star vs w => exact absurd rfl (h2 vs w)
    | _ => rfl
  · rw [List.flatMap_eq_nil_iff]
    intro b hb
    obtain ⟨h1, h2⟩ := h b hb
    cases b with
    | star vs w => exact absurd rfl (h2 vs w)
    | _ => rfl

/-- The four parts. -/
def parts (call : List (CallArg α)) : List (Arg α) :=
  (call.flatMap posOf).map .pos ++ ((call.flatMap moreOf).map .star ++
    ((call.flatMap namedOf).map Named.arg ++ (call.flatMap extraOf).map .starStar))

theorem flat_parts : ∀ {call : List (CallArg α)}, call.Pairwise okAfter →
    call.flatMap CallArg.expand = parts call ∧ (call.flatMap moreOf).length ≤ 1 ∧ (call.flatMap extraOf).length ≤ 1
  | [], _ => by simp [parts]
  | a :: call, h => by
    obtain ⟨h1, h2⟩ := List.pairwise_cons.mp h
    obtain ⟨ih, ih2, ih3⟩ := flat_parts h2
    have e : (a :: call).flatMap CallArg.expand = a.expand ++ call.flatMap CallArg.expand := by simp
    rw [e, ih]
    cases a with
    | pos v => exact ⟨by simp [parts, CallArg.expand, posOf, moreOf, namedOf, extraOf], by simpa [moreOf] using ih2, by simpa [extraOf] using ih3⟩
    | kw n v =>
      obtain ⟨e1, e2⟩ := no_pos (call := call) (fun b hb => ⟨by rintro v rfl; exact h1 _ hb, by rintro vs w rfl; exact h1 _ hb⟩)
      exact ⟨by simp [parts, CallArg.expand, posOf, moreOf, namedOf, extraOf, e1, e2, Named.arg], by simpa [moreOf] using ih2, by simpa [extraOf] using ih3⟩
    | star vs more =>
      cases more with
      | none => exact ⟨by simp [parts, CallArg.expand, posOf, moreOf, namedOf, extraOf], by simpa [moreOf] using ih2, by simpa [extraOf] using ih3⟩
      | some w =>
        obtain ⟨e1, e2⟩ := no_pos (call := call) (fun b hb => ⟨by rintro v rfl; exact h1 _ hb, by rintro vs w rfl; exact h1 _ hb⟩)
        exact ⟨by simp [parts, CallArg.expand, posOf, moreOf, namedOf, extraOf, e1, e2], by simp [moreOf, e2], by simpa [extraOf] using ih3⟩
    | starStar ms extra =>
      obtain ⟨e1, e2⟩ := no_pos (call := call) (fun b hb => ⟨by rintro v rfl; cases extra <;> exact h1 _ hb, by rintro vs w rfl; cases extra <;> exact h1 _ hb⟩)
      cases extra with
      | none =>
        exact ⟨by simp [parts, CallArg.expand, posOf, moreOf, namedOf, extraOf, e1, e2, Named.arg, Function.comp_def], by simpa [moreOf] using ih2, by simpa [extraOf] using ih3⟩
      | some w =>
        have : call = [] := by
          cases call with
          | nil => rfl
          | cons b call => exact absurd (h1 b List.mem_cons_self) (by cases b <;> exact id)
        subst this
        exact ⟨by simp [parts, CallArg.expand, posOf, moreOf, namedOf, extraOf, Named.arg, Function.comp_def], by simp [moreOf], by simp [extraOf]⟩

theorem keywordBeforeStar_false : ∀ {call : List (CallArg α)}, keywordBeforeStar call = false →
    call.Pairwise fun a b => (∃ n v, a = .kw n v) → ∀ vs w, b ≠ .star vs w
  | [], _ => List.Pairwise.nil
  | a :: call, h => by
    unfold keywordBeforeStar at h
    split at h
    · rename_i ha
      refine List.pairwise_cons.mpr ⟨?_, ?_⟩
      · rintro b hb _ vs w rfl
        have := List.any_eq_false.mp h _ hb
        exact this rfl
      · refine (List.pairwise_iff_forall_sublist.mpr ?_)
        intro a b hab _ vs w hb
        have := List.any_eq_false.mp h b (hab.subset (by simp))
        rw [hb] at this
        exact this rfl
    · rename_i ha
      refine List.pairwise_cons.mpr ⟨?_, keywordBeforeStar_false h⟩
      rintro b hb ⟨n, v, rfl⟩
      exact absurd rfl ha

theorem keywordBeforeStar_true : ∀ {call : List (CallArg α)}, keywordBeforeStar call = true →
    ¬ call.Pairwise fun a b => (∃ n v, a = .kw n v) → ∀ vs w, b ≠ .star vs w
  | [], h => by cases h
  | a :: call, h => by
    unfold keywordBeforeStar at h
    intro hp
    obtain ⟨h1, h2⟩ := List.pairwise_cons.mp hp
    split at h
    · rename_i ha
      obtain ⟨b, hb, hb2⟩ := List.any_eq_true.mp h
      cases a <;> cases ha
      cases b <;> cases hb2
      exact h1 _ hb ⟨_, _, rfl⟩ _ _ rfl
    · exact keywordBeforeStar_true h h2

theorem pairwise_and3 {β : Type} {R S T U : β → β → Prop} {l : List β} (h1 : l.Pairwise R) (h2 : l.Pairwise S)
    (h3 : l.Pairwise T) (h : ∀ a b, R a b → S a b → T a b → U a b) : l.Pairwise U := by
  induction l with
  | nil => exact List.Pairwise.nil
  | cons a l ih =>
    obtain ⟨a1, b1⟩ := List.pairwise_cons.mp h1
    obtain ⟨a2, b2⟩ := List.pairwise_cons.mp h2
    obtain ⟨a3, b3⟩ := List.pairwise_cons.mp h3
    exact List.pairwise_cons.mpr ⟨fun b hb => h a b (a1 b hb) (a2 b hb) (a3 b hb), ih b1 b2 b3⟩

theorem pairwise_filter {β : Type} {R : β → β → Prop} {p : β → Bool} {l : List β} (h : l.Pairwise R) :
    (l.filter p).Pairwise fun a b => R a b ∧ p a = true ∧ p b = true := by
  have h1 : (l.filter p).Pairwise R := h.filter p
  refine List.Pairwise.imp_of_mem ?_ h1
  intro a b ha hb hr
  exact ⟨hr, (List.mem_filter.mp ha).2, (List.mem_filter.mp hb).2⟩

theorem flatMap_filter_nil {β γ : Type} (f : β → List γ) (p : β → Bool) (l : List β) (h : ∀ b ∈ l, p b = false → f b = []) :
    (l.filter p).flatMap f = l.flatMap f := by
  induction l with
  | nil => rfl
  | cons b l ih =>
    have ih := ih fun c hc => h c (List.mem_cons_of_mem _ hc)
    cases hp : p b with
    | true => simp [hp, ih]
    | false => simp [hp, ih, h b List.mem_cons_self hp]

theorem flatMap_split {β γ : Type} (f : β → List γ) (p : β → Bool) (l : List β) :
    ((l.filter fun b => !p b).flatMap f ++ (l.filter p).flatMap f).Perm (l.flatMap f) := by
  rw [← List.flatMap_append]
  refine List.Perm.flatMap_right f ?_
  exact (List.perm_append_comm).trans (List.filter_append_perm p l)

theorem expand_kw {l : List (CallArg α)} (h : ∀ a ∈ l, a.isKw = true) :
    l.flatMap CallArg.expand = (l.flatMap namedOf).map Named.arg := by
  induction l with
  | nil => rfl
  | cons a l ih =>
    have ih := ih fun c hc => h c (List.mem_cons_of_mem _ hc)
    have := h a List.mem_cons_self
    cases a <;> cases this
    simp [CallArg.expand, namedOf, ih, Named.arg]

/-- The order of the arguments. -/
theorem stream_parts {call : List (CallArg α)} (hg : Grammatical call) (ho : Orderly call) :
    ∃ P s E k, stream call = (start P s E k).flat ∧ P = call.flatMap posOf ∧ s.toList = call.flatMap moreOf ∧
      E.Perm (call.flatMap namedOf) ∧ k.toList = call.flatMap extraOf := by
  have opt : ∀ l : List α, l.length ≤ 1 → ∃ o : Option α, o.toList = l := by
    intro l hl
    match l, hl with
    | [], _ => exact ⟨none, rfl⟩
    | [v], _ => exact ⟨some v, rfl⟩
  cases hk : keywordBeforeStar call with
  | false =>
    have h3 := keywordBeforeStar_false hk
    have hok : call.Pairwise okAfter := by
      refine pairwise_and3 (List.pairwise_and_iff.mpr ⟨hg, ho.double⟩) ho.star h3 ?_
      intro a b h1 h2 h3
      cases a with
      | pos v => cases b <;> trivial
      | kw n v =>
        cases b with
        | pos => exact h1.1
        | star vs w => exact h3 ⟨_, _, rfl⟩ _ _ rfl
        | _ => trivial
      | star vs more =>
        cases more with
        | none => cases b <;> trivial
        | some w =>
          cases b with
          | pos v => exact (h2 ⟨_, _, rfl⟩).1 _ rfl
          | star _ _ => exact (h2 ⟨_, _, rfl⟩).2 _ _ rfl
          | _ => trivial
      | starStar ms extra =>
        cases extra with
        | some w => exact absurd ⟨_, _, rfl⟩ h1.2
        | none =>
          cases b with
          | pos v => exact h1.1
          | star _ _ => exact h1.1
          | _ => trivial
    obtain ⟨e1, e2, e3⟩ := flat_parts hok
    obtain ⟨s, hs⟩ := opt _ e2
    obtain ⟨k, hk'⟩ := opt _ e3
    refine ⟨_, s, _, k, ?_, rfl, hs, List.Perm.refl _, hk'⟩
    unfold stream
    rw [hk]
    simp only [Bool.false_eq_true, if_false, e1, parts, Ab.flat, start, hs, hk']
  | true =>
    have hnod : ∀ a ∈ call, ¬ isUnknownDouble a := by
      intro a ha hd
      exact keywordBeforeStar_true hk (ho.kept ⟨a, ha, hd⟩)
    have hex : call.flatMap extraOf = [] := by
      rw [List.flatMap_eq_nil_iff]
      intro a ha
      cases a with
      | starStar ms extra =>
        cases extra with
        | none => rfl
        | some w => exact absurd ⟨_, _, rfl⟩ (hnod _ ha)
      | _ => rfl
    have hok : (call.filter fun a => !a.isKw).Pairwise okAfter := by
      refine pairwise_and3 (pairwise_filter hg) (pairwise_filter ho.star) (pairwise_filter ho.double) ?_
      rintro a b ⟨h1, h4, h5⟩ ⟨h2, _⟩ ⟨h3, _⟩
      cases a with
      | pos v => cases b <;> trivial
      | kw n v => cases h4
      | star vs more =>
        cases more with
        | none => cases b <;> trivial
        | some w =>
          cases b with
          | pos v => exact (h2 ⟨_, _, rfl⟩).1 _ rfl
          | star _ _ => exact (h2 ⟨_, _, rfl⟩).2 _ _ rfl
          | _ => trivial
      | starStar ms extra =>
        cases extra with
        | some w => exact absurd ⟨_, _, rfl⟩ h3
        | none =>
          cases b with
          | pos v => exact h1
          | star _ _ => exact h1
          | _ => trivial
    obtain ⟨e1, e2, e3⟩ := flat_parts hok
    have f1 : (call.filter fun a => !a.isKw).flatMap posOf = call.flatMap posOf :=
      flatMap_filter_nil _ _ _ (by intro b _ hb; cases b <;> simp [CallArg.isKw] at hb <;> rfl)
    have f2 : (call.filter fun a => !a.isKw).flatMap moreOf = call.flatMap moreOf :=
      flatMap_filter_nil _ _ _ (by intro b _ hb; cases b <;> simp [CallArg.isKw] at hb <;> rfl)
    have f3 : (call.filter fun a => !a.isKw).flatMap extraOf = call.flatMap extraOf :=
      flatMap_filter_nil _ _ _ (by intro b _ hb; cases b <;> simp [CallArg.isKw] at hb <;> rfl)
    rw [f2] at e2
    obtain ⟨s, hs⟩ := opt _ e2
    refine ⟨call.flatMap posOf, s, (call.filter fun a => !a.isKw).flatMap namedOf ++
      (call.filter CallArg.isKw).reverse.flatMap namedOf, none, ?_, rfl, hs, ?_, by rw [hex]; rfl⟩
    · unfold stream
      rw [hk]
      simp only [if_true, e1, parts, Ab.flat, start, f1, f2, f3, hs, hex]
      rw [expand_kw (by intro a ha; simp at ha; exact ha.2)]
      simp
    · refine List.Perm.trans ?_ (flatMap_split namedOf CallArg.isKw call)
      exact List.Perm.append_left _ (List.Perm.flatMap_right _ (List.reverse_perm _))

/-! ## The values at run time -/

def Named.pair (e : Named α) : String × α := (e.name, e.v)

theorem supplies_parts {call : List (CallArg α)} {P K} (h : Supplies call P K) (ho : Orderly call) :
    ∃ ws es, P = call.flatMap posOf ++ ws ∧ (∀ w ∈ ws, w ∈ call.flatMap moreOf) ∧
      K.Perm ((call.flatMap namedOf).map Named.pair ++ es) ∧ ∀ e ∈ es, e.2 ∈ call.flatMap extraOf := by
  replace ho := ho.star
  induction h with
  | nil => exact ⟨[], [], by simp⟩
  | @pos v call P K _ ih =>
    obtain ⟨ws, es, h1, h2, h3, h4⟩ := ih (List.pairwise_cons.mp ho).2
    refine ⟨ws, es, by simp [posOf, h1], by simpa [moreOf] using h2, by simpa [namedOf] using h3, by simpa [extraOf] using h4⟩
  | @kw n v call P K _ ih =>
    obtain ⟨ws, es, h1, h2, h3, h4⟩ := ih (List.pairwise_cons.mp ho).2
    refine ⟨ws, es, by simpa [posOf] using h1, by simpa [moreOf] using h2, ?_, by simpa [extraOf] using h4⟩
    simpa [namedOf, Named.pair] using h3
  | @star vs more us call P K hu _ ih =>
    obtain ⟨ho1, ho2⟩ := List.pairwise_cons.mp ho
    obtain ⟨ws, es, h1, h2, h3, h4⟩ := ih ho2
    cases more with
    | none =>
      have : us = [] := by
        cases us with
        | nil => rfl
        | cons u us => cases hu u List.mem_cons_self
      subst this
      exact ⟨ws, es, by simp [posOf, h1], by simpa [moreOf] using h2, by simpa [namedOf] using h3, by simpa [extraOf] using h4⟩
    | some w =>
      obtain ⟨e1, e2⟩ := no_pos (fun b hb => ho1 b hb ⟨_, _, rfl⟩)
      rw [e1] at h1
      rw [e2] at h2
      have : ws = [] := by
        cases ws with
        | nil => rfl
        | cons u us => cases h2 u List.mem_cons_self
      subst this
      refine ⟨us, es, by simp [posOf, h1, e1], ?_, by simpa [namedOf] using h3, by simpa [extraOf] using h4⟩
      intro u hu'
      have := hu u hu'
      injection this with this
      subst this
      simp [moreOf]
  | @starStar ms extra xs call P K hx _ ih =>
    obtain ⟨ws, es, h1, h2, h3, h4⟩ := ih (List.pairwise_cons.mp ho).2
    refine ⟨ws, xs ++ es, by simpa [posOf] using h1, by simpa [moreOf] using h2, ?_, ?_⟩
    · have e : ((CallArg.starStar ms extra :: call).flatMap namedOf).map Named.pair =
          ms ++ (call.flatMap namedOf).map Named.pair := by
        simp [namedOf, Named.pair, Function.comp_def]
      rw [e, List.append_assoc, List.append_assoc]
      refine List.Perm.append_left _ ?_
      refine (List.Perm.append_left _ h3).trans ?_
      rw [← List.append_assoc, ← List.append_assoc]
      exact List.Perm.append_right _ List.perm_append_comm
    · intro e he
      rcases List.mem_append.mp he with he | he
      · have := hx e he
        simp [extraOf, this]
      · have := h4 e he
        simp only [List.flatMap_cons, List.mem_append]
        exact Or.inr this

theorem parts_supplies : ∀ {call : List (CallArg α)} (_ : Orderly call) (ws es) (_ : ∀ w ∈ ws, (call.flatMap moreOf) = [w])
    (_ : ∀ e ∈ es, (call.flatMap extraOf) = [e.2]), ∃ K, Supplies call (call.flatMap posOf ++ ws) K ∧
      K.Perm ((call.flatMap namedOf).map Named.pair ++ es) := by
  intro call ho
  replace ho := ho.star
  induction call with
  | nil =>
    intro ws es hw he
    have e1 : ws = [] := by
      cases ws with
      | nil => rfl
      | cons u us => cases hw u List.mem_cons_self
    have e2 : es = [] := by
      cases es with
      | nil => rfl
      | cons u us => cases he u List.mem_cons_self
    subst e1 e2
    exact ⟨[], Supplies.nil, by simp⟩
  | cons a call ih =>
    intro ws es hw he
    obtain ⟨ho1, ho2⟩ := List.pairwise_cons.mp ho
    have ih := ih ho2
    cases a with
    | pos v =>
      obtain ⟨K, h1, h2⟩ := ih ws es (by simpa [moreOf] using hw) (by simpa [extraOf] using he)
      exact ⟨K, Supplies.pos h1, by simpa [namedOf] using h2⟩
    | kw n v =>
      obtain ⟨K, h1, h2⟩ := ih ws es (by simpa [moreOf] using hw) (by simpa [extraOf] using he)
      exact ⟨_, Supplies.kw h1, by simpa [namedOf, Named.pair] using h2⟩
    | star vs more =>
      cases more with
      | none =>
        obtain ⟨K, h1, h2⟩ := ih ws es (by simpa [moreOf] using hw) (by simpa [extraOf] using he)
        refine ⟨K, ?_, by simpa [namedOf] using h2⟩
        have := Supplies.star (vs := vs) (more := none) (ws := []) (by simp) h1
        simpa [posOf] using this
      | some w =>
        obtain ⟨e1, e2⟩ := no_pos (fun b hb => ho1 b hb ⟨_, _, rfl⟩)
        obtain ⟨K, h1, h2⟩ := ih [] es (by simp) (by simpa [extraOf] using he)
        refine ⟨K, ?_, by simpa [namedOf] using h2⟩
        have := Supplies.star (vs := vs) (more := some w) (ws := ws) (by
          intro u hu
          have := hw u hu
          simp [moreOf, e2] at this
          rw [this]) h1
        simpa [posOf, e1] using this
    | starStar ms extra =>
      have e : ((CallArg.starStar ms extra :: call).flatMap namedOf).map Named.pair =
          ms ++ (call.flatMap namedOf).map Named.pair := by
        simp [namedOf, Named.pair, Function.comp_def]
      rw [e]
      cases extra with
      | none =>
        obtain ⟨K, h1, h2⟩ := ih ws es (by simpa [moreOf] using hw) (by simpa [extraOf] using he)
        refine ⟨_, Supplies.starStar (ms := ms) (extra := none) (es := []) (by simp) h1, ?_⟩
        rw [List.append_nil, List.append_assoc]
        exact List.Perm.append_left _ h2
      | some w =>
        obtain ⟨K, h1, h2⟩ := ih ws [] (by simpa [moreOf] using hw) (by simp)
        refine ⟨_, Supplies.starStar (ms := ms) (extra := some w) (es := es) (by
          intro u hu
          have := he u hu
          simp [extraOf] at this
          rw [this.1]) h1, ?_⟩
        rw [List.append_nil] at h2
        rw [List.append_assoc, List.append_assoc]
        refine List.Perm.append_left _ ?_
        exact List.perm_append_comm.trans (List.Perm.append_right _ h2)

end Verif.Call
