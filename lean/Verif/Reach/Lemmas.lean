import Verif.Reach.Spec

/-! # Lemmas about comparisons -/

namespace Verif.Reach

theorem compare_nat (a b : Nat) :
    Ord.compare a b = if a < b then .lt else if b < a then .gt else .eq := by
  show compareOfLessAndEq a b = _
  unfold compareOfLessAndEq
  split
  · rfl
  · split
    · next h => subst h; simp
    · rw [if_pos (by omega)]

theorem checkOrder_holds (op : Op) (o : Ordering) : checkOrder op o = holds op o := by
  cases op <;> cases o <;> rfl

/-- The value of a decided comparison. -/
theorem decideOrder_right {op : Op} {o o' : Ordering} (h : holds op o = holds op o') {t : Truth}
    (ht : decideOrder op o = t) {b : Bool} (hb : holds op o' = some b) :
    (∀ c, t = .yes c → b = true) ∧ (t = .no → b = false) := by
  subst ht
  unfold decideOrder
  rw [checkOrder_holds, h, hb]
  cases b <;> simp [Truth.ofBool]

/-- The order found by the loop and the order of Python. -/
theorem tupleOrder_right (r : Run) {cs : List Nat} {es : List Elem} {vs : List Nat} {o : Ordering}
    (hl : es.length ≤ cs.length) (hv : es.length ≤ vs.length)
    (hp : ∀ i < es.length, vs[i]? = cs[i]?) (h : tupleOrder cs es = some o) :
    (o ≠ .eq → lex vs (es.map (Elem.value r)) = o) ∧
      (o = .eq → lex vs (es.map (Elem.value r)) = if vs.length = es.length then .eq else .gt) := by
  induction es generalizing cs vs with
  | nil =>
    have : o = .eq := by cases cs <;> simp [tupleOrder] at h <;> exact h.symm
    subst this
    cases vs with
    | nil => simp [lex]
    | cons v vs => simp [lex]
  | cons e es ih =>
    cases cs with
    | nil => simp at hl
    | cons c cs =>
      cases vs with
      | nil => simp at hv
      | cons v vs =>
        have hvc : v = c := by simpa using hp 0 (by simp)
        subst hvc
        cases e with
        | other k => simp [tupleOrder] at h
        | int n =>
          simp only [tupleOrder] at h
          split at h
          · cases h
          · simp only [List.map_cons, Elem.value, lex]
            rw [compare_nat] at h
            by_cases h1 : v < n
            · simp only [h1, if_true, Option.some.injEq] at h
              subst h
              simp [h1]
            · by_cases h2 : n < v
              · simp only [h1, h2, if_true, if_false, Option.some.injEq] at h
                subst h
                simp [h1, h2]
              · simp only [h1, h2, if_false] at h
                have := ih (vs := vs) (by simpa using hl) (by simpa using hv)
                  (fun i hi => by simpa using hp (i + 1) (by simpa using hi)) h
                simpa [h1, h2] using this

theorem lex_eq {a b : List Nat} : lex a b = .eq ↔ a = b := by
  induction a generalizing b with
  | nil => cases b <;> simp [lex]
  | cons x a ih =>
    cases b with
    | nil => simp [lex]
    | cons y b =>
      simp only [lex, List.cons.injEq]
      by_cases h1 : x < y
      · simp [h1]; omega
      · by_cases h2 : y < x
        · simp [h1, h2]; omega
        · simp only [h1, h2, if_false, ih]
          have : x = y := by omega
          simp [this]

/-- Equality does not depend on the sides. -/
theorem holds_swap {op : Op} (h : op = .eq ∨ op = .ne) (a b : List Nat) :
    holds op (lex a b) = holds op (lex b a) := by
  have : lex a b = .eq ↔ lex b a = .eq := by rw [lex_eq, lex_eq]; exact eq_comm
  rcases h with rfl | rfl <;> simp [holds, this]

/-- What decided truths say about a value. -/
def Agrees (t : Truth) (v : Option Bool) : Prop :=
  ∀ b, v = some b → (∀ c, t = .yes c → b = true) ∧ (t = .no → b = false)

theorem Agrees.unknown (v : Option Bool) : Agrees .unknown v :=
  fun _ _ => ⟨fun _ h => (by cases h), fun h => (by cases h)⟩

theorem Agrees.ofBool {b : Bool} : Agrees (.ofBool b) (some b) := by
  intro c hc
  cases hc
  cases b <;> simp [Truth.ofBool]

/-- The part of the version that a tuple is compared with. -/
theorem versionTuple_right {s : Settings} {r : Run} (hf : Fits s r) {op : Op} {es : List Elem}
    {lo : Nat} {t : Truth} (h : versionTuple s op (.tuple es) lo = some t) (vs : List Nat)
    (hvs : es.length + lo ≤ 2 → es.length ≤ vs.length) (hp : ∀ i < es.length, vs[i]? = r.version[lo + i]?)
    (hop : op = .lt ∨ op = .ge ∨ vs.length = es.length) :
    Agrees t (holds op (lex vs (es.map (Elem.value r)))) := by
  simp only [versionTuple] at h
  split at h
  · cases h
  · next h1 =>
    split at h
    · simp only [Option.some.injEq] at h; subst h; exact .unknown _
    · next h2 =>
      obtain ⟨extra, hx, hv⟩ := hf.version
      have hlen : es.length + lo ≤ 2 := by omega
      split at h
      · next o ho =>
        simp only [Option.some.injEq] at h
        have key := tupleOrder_right r (cs := [s.major, s.minor].drop lo) (vs := vs)
          (by simp; omega) (hvs hlen) (by
            intro i hi
            rw [hp i hi, hv]
            match lo, i with
            | 0, 0 => rfl
            | 0, 1 => rfl
            | 1, 0 => rfl
            | 0, i + 2 => omega
            | 1, i + 1 => omega
            | lo + 2, i => omega) ho
        intro b hb
        refine decideOrder_right ?_ h hb
        by_cases he : o = .eq
        · rw [key.2 he, he]
          rcases hop with rfl | rfl | hop
          · split <;> rfl
          · split <;> rfl
          · rw [if_pos hop]
        · rw [key.1 he]
      · simp only [Option.some.injEq] at h; subst h; exact .unknown _

theorem holds_other (o : Ordering) : holds .other o = none := rfl

/-- Comparisons with a slice of the version, in the usual order. -/
theorem slice_right {s : Settings} {r : Run} (hf : Fits s r) {op : Op} {first upper : Option Elem}
    {es : List Elem} {t : Truth} (hc : SliceFair first upper op es.length)
    (h : checkComparison s op (.slice first upper false) (.tuple es) = some t) :
    ∃ vs, (Part.slice first upper false).value r = some (.tup vs) ∧
      Agrees t (holds op (lex vs (es.map (Elem.value r)))) := by
  obtain ⟨extra, hx, hv⟩ := hf.version
  have hx' : 0 < extra.length := List.length_pos_iff.mpr hx
  simp only [checkComparison, Bool.false_eq_true, if_false] at h
  match first, upper with
  | some (.other k), _ =>
    simp only [Option.some.injEq] at h
    subst h
    exact ⟨_, rfl, .unknown _⟩
  | none, some (.other _) => cases hc
  | some (.int _), some (.other _) => cases hc
  | none, none =>
    refine ⟨_, rfl, versionTuple_right hf h _ ?_ (fun i _ => by simp) ?_⟩
    · intro _; rw [hv]; simp; omega
    · rcases hc with h | h
      · exact .inl h
      · exact .inr (.inl h)
  | some (.int l), none =>
    simp only at h
    split at h
    · simp only [Option.some.injEq] at h; subst h; exact ⟨_, rfl, .unknown _⟩
    · refine ⟨_, rfl, versionTuple_right hf h _ ?_ (fun i _ => by simp [Elem.value]) ?_⟩
      · intro _; simp only [hv, Elem.value, List.length_drop, List.length_cons]; omega
      · rcases hc with h | h
        · exact .inl h
        · exact .inr (.inl h)
  | none, some (.int u) =>
    obtain ⟨h1, h2⟩ := hc
    simp only at h
    by_cases h3 : es.length + 0 ≤ 2
    · have hlen : es.length ≤ (r.version.take u).length := by
        simp only [hv, List.length_take, List.length_cons]; omega
      refine ⟨_, rfl, versionTuple_right hf h _ (fun _ => hlen) (fun i hi => ?_) ?_⟩
      · simp only [Elem.value, List.getElem?_take, Nat.zero_add]
        rw [if_pos (by omega)]
      · rcases h2 with h | h | h
        · exact .inl h
        · exact .inr (.inl h)
        · refine .inr (.inr ?_)
          simp only [Elem.value, hv, List.length_take, List.length_cons]
          omega
    · simp only [versionTuple] at h
      split at h
      · cases h
      · simp only [gt_iff_lt, if_pos (by omega : 2 < es.length + 0), Option.some.injEq] at h
        subst h
        exact ⟨_, rfl, .unknown _⟩
  | some (.int l), some (.int u) =>
    obtain ⟨h1, h2⟩ := hc
    simp only at h
    split at h
    · simp only [Option.some.injEq] at h; subst h; exact ⟨_, rfl, .unknown _⟩
    · by_cases h3 : es.length + l ≤ 2
      · have hlen : es.length ≤ ((r.version.take u).drop l).length := by
          simp only [hv, List.length_drop, List.length_take, List.length_cons]; omega
        refine ⟨_, rfl, versionTuple_right hf h _ (fun _ => hlen) (fun i hi => ?_) ?_⟩
        · simp only [Elem.value, List.getElem?_drop, List.getElem?_take]
          rw [if_pos (by omega)]
        · rcases h2 with h | h | h
          · exact .inl h
          · exact .inr (.inl h)
          · refine .inr (.inr ?_)
            simp only [Elem.value, hv, List.length_drop, List.length_take, List.length_cons]
            omega
      · simp only [versionTuple] at h
        split at h
        · cases h
        · simp only [gt_iff_lt, if_pos (by omega : 2 < es.length + l), Option.some.injEq] at h
          subst h
          exact ⟨_, rfl, .unknown _⟩

/-- Comparisons of the first number. -/
theorem item_right {s : Settings} {r : Run} (hf : Fits s r) {op : Op} {n : Nat} {t : Truth}
    (h : checkComparison s op (.item (.int 0)) (.int n) = some t) :
    (Part.item (.int 0)).value r = some (.int s.major) ∧ Agrees t (holds op
      (if s.major < n then .lt else if n < s.major then .gt else .eq)) := by
  obtain ⟨extra, hx, hv⟩ := hf.version
  refine ⟨by simp [Part.value, Elem.value, hv], ?_⟩
  simp only [checkComparison] at h
  split at h
  · simp only [Option.some.injEq] at h; subst h; exact .unknown _
  · simp only [Option.some.injEq, compare_nat] at h
    intro b hb
    exact decideOrder_right rfl h hb

theorem beq_str (x y : String) : (x == y) = decide (x = y) := by
  rw [Bool.eq_iff_iff]; simp

theorem compare_forward {s : Settings} {r : Run} (hf : Fits s r) {op : Op} {a b : Part} {t : Truth}
    (hc : CompareFair a op b) (h : checkComparison s op a b = some t) :
    Agrees t (comparison r a op b) := by
  obtain ⟨extra, hx, hv⟩ := hf.version
  cases a with
  | platform =>
    have hu : some Truth.unknown = some t → Agrees t (comparison r .platform op b) := by
      rintro h; cases h; exact .unknown _
    cases op <;> cases b <;> first | exact hu h | skip
    · simp only [checkComparison, Option.some.injEq] at h
      subst h
      simp only [comparison, reduceCtorEq, if_false, Part.value, hf.platform]
      rw [beq_str, decide_eq_decide.mpr eq_comm]; exact .ofBool
    · simp only [checkComparison, Option.some.injEq] at h
      subst h
      simp only [comparison, reduceCtorEq, if_false, Part.value, hf.platform]
      rw [beq_str, ← decide_not, decide_eq_decide.mpr (not_congr eq_comm)]; exact .ofBool
  | version =>
    cases b with
    | tuple es =>
      have hop : op ≠ .other := by rcases hc with h | h <;> rw [h] <;> decide
      simp only [comparison, hop, if_false, Part.value]
      refine versionTuple_right hf h _ ?_ (fun i _ => by simp) ?_
      · intro _; rw [hv]; simp; omega
      · rcases hc with h | h
        · exact .inl h
        · exact .inr (.inl h)
    | _ => simp only [checkComparison, versionTuple, Option.some.injEq] at h; subst h; exact .unknown _
  | slice first upper step =>
    cases step with
    | true => simp only [checkComparison, if_true, Option.some.injEq] at h; subst h; exact .unknown _
    | false =>
      cases b with
      | tuple es =>
        obtain ⟨vs, h1, h2⟩ := slice_right hf hc h
        unfold comparison
        split
        · next ho =>
          intro b hb
          subst ho
          have : t = .unknown := by
            simp only [checkComparison, Bool.false_eq_true, if_false] at h
            have aux : ∀ lo, versionTuple s .other (.tuple es) lo = some t → t = .unknown := by
              intro lo h
              simp only [versionTuple] at h
              split at h
              · cases h
              · split at h
                · cases h; rfl
                · split at h <;> cases h <;> rfl
            split at h
            · exact aux _ h
            · split at h
              · cases h; rfl
              · exact aux _ h
            · cases h; rfl
          subst this
          exact Agrees.unknown _ b hb
        · rw [h1]; exact h2
      | _ =>
        have : t = .unknown := by
          simp only [checkComparison, Bool.false_eq_true, if_false, versionTuple] at h
          split at h
          · cases h; rfl
          · split at h <;> cases h <;> rfl
          · cases h; rfl
        subst this
        exact .unknown _
  | item i =>
    cases i with
    | int k =>
      cases k with
      | zero =>
        cases b with
        | int n =>
          obtain ⟨h1, h2⟩ := item_right hf h
          unfold comparison
          split
          · next ho =>
            subst ho
            simp only [checkComparison] at h
            split at h
            · cases h; exact .unknown _
            · cases h; exact .unknown _
          · rw [h1]; exact h2
        | _ => simp only [checkComparison, Option.some.injEq] at h; subst h; exact .unknown _
      | succ k => simp only [checkComparison, Option.some.injEq] at h; subst h; exact .unknown _
    | other k => simp only [checkComparison, Option.some.injEq] at h; subst h; exact .unknown _
  | _ => simp only [checkComparison, Option.some.injEq] at h; subst h; exact .unknown _

theorem compare_backward {s : Settings} {r : Run} (hf : Fits s r) {op : Op} {a b : Part} {t : Truth}
    (hc : CompareFair a op b) (h : checkComparison s op b a = some t) :
    Agrees t (comparison r a op b) := by
  obtain ⟨extra, hx, hv⟩ := hf.version
  cases b with
  | platform =>
    have hu : some Truth.unknown = some t → Agrees t (comparison r a op .platform) := by
      rintro h; cases h; exact .unknown _
    cases op <;> cases a <;> first | exact hu h | skip
    · simp only [checkComparison, Option.some.injEq] at h
      subst h
      simp only [comparison, reduceCtorEq, if_false, Part.value, hf.platform]
      rw [beq_str]; exact .ofBool
    · simp only [checkComparison, Option.some.injEq] at h
      subst h
      simp only [comparison, reduceCtorEq, if_false, Part.value, hf.platform]
      rw [beq_str, ← decide_not]; exact .ofBool
  | version =>
    cases a with
    | tuple es => cases hc
    | _ => simp only [checkComparison, versionTuple, Option.some.injEq] at h; subst h; exact .unknown _
  | slice first upper step =>
    cases step with
    | true => simp only [checkComparison, if_true, Option.some.injEq] at h; subst h; exact .unknown _
    | false =>
      cases a with
      | tuple es =>
        obtain ⟨hop, hc⟩ := hc
        obtain ⟨vs, h1, h2⟩ := slice_right hf hc h
        have ho : op ≠ .other := by rcases hop with h | h <;> rw [h] <;> decide
        have hval : (Part.tuple es).value r = some (.tup (es.map (Elem.value r))) := rfl
        simp only [comparison, ho, if_false, h1, hval]
        rw [holds_swap hop]
        exact h2
      | _ =>
        have : t = .unknown := by
          simp only [checkComparison, Bool.false_eq_true, if_false, versionTuple] at h
          split at h
          · cases h; rfl
          · split at h <;> cases h <;> rfl
          · cases h; rfl
        subst this
        exact .unknown _
  | item i =>
    cases i with
    | int k =>
      cases k with
      | zero =>
        cases a with
        | int n =>
          obtain ⟨h1, h2⟩ := item_right hf h
          have hop : op = .eq ∨ op = .ne := hc
          have ho : op ≠ .other := by rcases hop with h | h <;> rw [h] <;> decide
          have hval : (Part.int n).value r = some (.int n) := rfl
          simp only [comparison, ho, if_false, h1, hval]
          have : holds op (if n < s.major then .lt else if s.major < n then .gt else .eq) =
              holds op (if s.major < n then .lt else if n < s.major then .gt else .eq) := by
            rcases Nat.lt_trichotomy n s.major with g | g | g
            · rcases hop with rfl | rfl <;> simp [holds, g, Nat.not_lt_of_lt g]
            · rw [g]
            · rcases hop with rfl | rfl <;> simp [holds, g, Nat.not_lt_of_lt g]
          rw [this]
          exact h2
        | _ => simp only [checkComparison, Option.some.injEq] at h; subst h; exact .unknown _
      | succ k => simp only [checkComparison, Option.some.injEq] at h; subst h; exact .unknown _
    | other k => simp only [checkComparison, Option.some.injEq] at h; subst h; exact .unknown _
  | _ => simp only [checkComparison, Option.some.injEq] at h; subst h; exact .unknown _

/-! ## All conditions -/

theorem Agrees.invert {t : Truth} {v : Option Bool} (h : Agrees t v) :
    Agrees t.invert (v.map fun b => !b) := by
  intro b hb
  cases v with
  | none => cases hb
  | some x =>
    simp only [Option.map_some, Option.some.injEq] at hb
    obtain ⟨h1, h2⟩ := h x rfl
    subst hb
    cases t with
    | yes c => have := h1 c rfl; subst this; simp [Truth.invert]
    | no => have := h2 rfl; subst this; simp [Truth.invert]
    | unknown => exact Agrees.unknown (some (!x)) _ rfl

theorem Agrees.and {t u : Truth} {v w : Option Bool} (h : Agrees t v) (h' : Agrees u w) :
    Agrees (t.and u) (v.bind fun x => if x then w else some false) := by
  intro b hb
  cases v with
  | none => cases hb
  | some x =>
    obtain ⟨h1, h2⟩ := h x rfl
    cases x with
    | false =>
      simp only [Option.bind_some, Bool.false_eq_true, if_false, Option.some.injEq] at hb
      subst hb
      cases t with
      | yes c => cases h1 c rfl
      | no => simp [Truth.and]
      | unknown => cases u <;> simp [Truth.and]
    | true =>
      simp only [Option.bind_some, if_true] at hb
      obtain ⟨g1, g2⟩ := h' b hb
      cases t with
      | no => cases h2 rfl
      | yes c => cases u <;> simp_all [Truth.and]
      | unknown => cases u <;> simp_all [Truth.and]

theorem Agrees.or {t u : Truth} {v w : Option Bool} (h : Agrees t v) (h' : Agrees u w) :
    Agrees (t.or u) (v.bind fun x => if x then some true else w) := by
  intro b hb
  cases v with
  | none => cases hb
  | some x =>
    obtain ⟨h1, h2⟩ := h x rfl
    cases x with
    | true =>
      simp only [Option.bind_some, if_true, Option.some.injEq] at hb
      subst hb
      cases t with
      | no => cases h2 rfl
      | yes c => cases u <;> simp [Truth.or]
      | unknown => cases u <;> simp [Truth.or]
    | false =>
      simp only [Option.bind_some, Bool.false_eq_true, if_false] at hb
      obtain ⟨g1, g2⟩ := h' b hb
      cases t with
      | yes c => cases h1 c rfl
      | no => cases u <;> simp_all [Truth.or]
      | unknown => cases u <;> simp_all [Truth.or]

theorem decideCond_right {s : Settings} {r : Run} (hf : Fits s r) {c : Cond} (hc : c.Fair)
    {t : Truth} (h : decideCond s c = some t) : Agrees t (c.value r) := by
  induction c generalizing t with
  | name x =>
    simp only [decideCond] at h
    simp only [Cond.value]
    split at h
    · next hx =>
      cases h
      have : r.name x = some true := by
        rcases hx with rfl | rfl
        · exact hf.checking.1
        · exact hf.checking.2.1
      rw [this]
      intro b hb; cases hb; simp
    · next h1 =>
      split at h
      · next hx =>
        cases h
        have : r.name x = some true := by
          rcases hx with rfl | hx
          · exact hf.three
          · exact hf.yes x hx
        rw [this]
        intro b hb; cases hb; simp
      · next h2 =>
        split at h
        · next hx =>
          cases h
          rw [hf.no x hx (fun e => h1 (.inl e)) (fun e => h1 (.inr e)) (fun e => h2 (.inl e))
            (fun e => h2 (.inr e))]
          intro b hb; cases hb; simp
        · cases h; exact .unknown _
  | typing =>
    cases h
    simp only [Cond.value, hf.checking.2.2]
    intro b hb; cases hb; simp
  | startswith a =>
    cases a with
    | none => cases h; exact .unknown _
    | some x =>
      simp only [decideCond, Option.some.injEq] at h
      subst h
      simp only [Cond.value, hf.platform]
      have : x.toList.isPrefixOf s.platform.toList = decide (x.toList <+: s.platform.toList) := by
        rw [Bool.eq_iff_iff]; simp
      rw [this]; exact .ofBool
  | paren c ih => exact ih hc h
  | compare a op b =>
    simp only [decideCond] at h
    simp only [Cond.value]
    split at h
    · exact compare_backward hf hc h
    · exact compare_forward hf hc h
  | not c ih =>
    simp only [decideCond, Option.map_eq_some_iff] at h
    obtain ⟨u, h, rfl⟩ := h
    exact (ih hc h).invert
  | and a b iha ihb =>
    simp only [decideCond, Option.bind_eq_bind, Option.bind_eq_some_iff, Option.some.injEq] at h
    obtain ⟨x, h1, y, h2, rfl⟩ := h
    exact (iha hc.1 h1).and (ihb hc.2 h2)
  | or a b iha ihb =>
    simp only [decideCond, Option.bind_eq_bind, Option.bind_eq_some_iff, Option.some.injEq] at h
    obtain ⟨x, h1, y, h2, rfl⟩ := h
    exact (iha hc.1 h1).or (ihb hc.2 h2)
  | other k => cases h; exact .unknown _

end Verif.Reach
